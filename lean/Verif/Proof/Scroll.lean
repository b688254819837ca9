import Verif.Proof.Transcript
import Verif.Proof.Notebook
import Verif.Props.C80
/-!
# The rows of a program's calls
-/
namespace Readline
open Spec

variable {E : Env} {w : World} {D : Desk} {t : List Char} {n : Nat} {clip : Option (List Char)} {ks : List (List Char)}
  {adv : Rune → Int} {v : Vt} {S : Sign}

theorem Spec.Console.room (hC : Console S E w D t clip ks adv v) (h : PlainDesk E w D t n clip ks) :
    0 ≤ S.columns E.cfg ∧ S.columns E.cfg + 5 < w.termWidth := by
  refine ⟨hC.sign.nonneg, ?_⟩
  rw [← hC.sign.width w.promptN]
  exact h.room

theorem console_unfed (h : PlainDesk E w D t n clip ks) (hl : ∀ k ∈ ks, D.verb k ≠ .redraw) :
    ∀ k, .key k ∈ w.input → lookupCommand E k ≠ .clearScreen ∧ lookupCommand E k ≠ .repaintOnNewline := by
  intro q hq
  obtain ⟨k, hk, rfl⟩ := h.setting.key hq
  have hm := h.means k hk
  have hv := hl k hk
  generalize D.verb k = x at hm hv
  generalize lookupCommand E (utf8 k) = c at hm
  cases hm <;> first | exact absurd rfl hv | exact ⟨(fun hx => by cases hx), (fun hx => by cases hx)⟩

theorem rowed_weaken {P Q : Nat → Prop} (h : ∀ r, P r → Q r) {c : Int} {t : Tok} (ht : Rowed P E c t) : Rowed Q E c t := by
  rcases ht with ht | ht
  · left
    cases t with
    | glyph m => obtain ⟨r, h1, e⟩ := ht; exact ⟨r, h r h1, e⟩
    | _ => exact ht
  · exact .inr ht

theorem console_sane (hC : Console S E w D t clip ks adv v) : Sane E (blur E adv v.width) := blur_sane (width_nonneg hC.width hC.zwj)

/-- **While a line is edited**: the row below, the rest as it was. -/
theorem call_during (h : PlainDesk E w D t n clip ks) (hC : Console S E w D t clip ks adv v) (hl : ∀ k ∈ ks, D.verb k ≠ .redraw)
    {s : St} (hr : Reachable E w s) (hn : noResize s.input ≠ []) :
    ∃ o, s.out = w.out ++ o ∧ Level (S.base v) (v.run adv (bytesOf E.cfg o)) := by
  have hb := h.setting.builtin
  have ho := console_ordinary h hC
  obtain ⟨ts, e, hts⟩ := (ordinary_rowed (console_unfed h hl) hb ho.scalar (console_plainly h hC).scalar hC.sign.width hr).out
  have e : s.out = w.out ++ .lit (signBytes E w.promptN) :: ts := by rw [e]; simp
  obtain ⟨t1, e1, hin⟩ := session_within (console_sane hC) hb (ordinary_steady hb ho) hC.wide hC.resized hr hn
  obtain rfl := List.append_cancel_left (e.symm.trans e1)
  have hroom := hC.room h
  have hwide := hC.wide
  refine ⟨_, e, (call_rows hC.agrees hC.colourOn hC.colourOff hC.sign (by omega) (fun t ht => rowed_weaken (fun r hr => ⟨hr.1.1, hr.2⟩) (hts t ht))
    hC.ground hC.col hC.start (Int.le_trans (hin _) ?_)).1⟩
  show max (0 : Int) (v.width - 3) ≤ v.width
  omega

/-- **When the call ends** with a key: the row is left behind; it shows what is shown before the end of the line is written. -/
theorem call_closes (h : PlainDesk E w D t n clip ks) (hC : Console S E w D t clip ks adv v) (hl : ∀ k ∈ ks, D.verb k ≠ .redraw)
    (hlf : E.lineFeed = none) {s : St} {r : RLRes} (hrl : readLine E w = .ok (s, r)) (he : ∀ e, r.err ≠ .tty e) :
    ∃ ts u, s.out = w.out ++ .lit (signBytes E w.promptN) :: ts ++ farewell E.lineFeed r.err ∧
      (∃ rs, Reads (bytesOf E.cfg (.lit (signBytes E w.promptN) :: ts ++ farewell E.lineFeed r.err)) rs) ∧ Level (S.base v) u ∧
      (v.run adv (bytesOf E.cfg (.lit (signBytes E w.promptN) :: ts ++ farewell E.lineFeed r.err))).cells = u.newline.cells ∧
      (v.run adv (bytesOf E.cfg (.lit (signBytes E w.promptN) :: ts ++ farewell E.lineFeed r.err))).row = u.newline.row ∧
      (v.run adv (bytesOf E.cfg (.lit (signBytes E w.promptN) :: ts ++ farewell E.lineFeed r.err))).col = 0 ∧
      (v.run adv (bytesOf E.cfg (.lit (signBytes E w.promptN) :: ts ++ farewell E.lineFeed r.err))).mode = .ground ∧
      (v.run adv (bytesOf E.cfg (.lit (signBytes E w.promptN) :: ts ++ farewell E.lineFeed r.err))).width = v.width ∧
      (v.run adv (bytesOf E.cfg (.lit (signBytes E w.promptN) :: ts ++ farewell E.lineFeed r.err))).height = u.newline.height ∧
      ∀ (y z : St), Reachable E w z → y.suffix = none → y.topColumn = z.topColumn → (∀ m ∈ y.mojis, m ∈ z.mojis) →
        (∀ row, Shows E y (Row.run E.cfg (blur E adv v.width) row (.lit (signBytes E w.promptN) :: ts))) →
        RowShows S E.cfg adv u u.row (y.termWidth - S.columns E.cfg - 3) (runesOf y.text) y.cursor.toNat := by
  have hb := h.setting.builtin
  have ho := console_ordinary h hC
  have hS := console_sane hC
  have hst := ordinary_steady hb ho
  obtain ⟨ts, e, hts⟩ := ending_rowed (console_unfed h hl) hb ho.scalar (console_plainly h hC).scalar hC.sign.width hrl he
  obtain ⟨t1, e1, hin⟩ := C27_partial hS hb hst hC.wide hC.resized hrl (he _)
  have e2 : s.out = w.out ++ (.lit (signBytes E w.promptN) :: ts ++ farewell E.lineFeed r.err) := by rw [e]; simp
  obtain rfl := List.append_cancel_left (e2.symm.trans e1)
  have hroom := hC.room h
  have hwide := hC.wide
  have hlim : (Row.run E.cfg (blur E adv v.width) { col := v.col, cells := fun _ => anything, high := 0 }
      (.lit (signBytes E w.promptN) :: ts)).high ≤ v.width := by
    have h1 := hin { col := v.col, cells := fun _ => anything, high := 0 }
    rw [run_append] at h1
    refine Int.le_trans (row_high_run (farewell E.lineFeed r.err) _) (Int.le_trans h1 ?_)
    show max (0 : Int) (v.width - 3) ≤ v.width
    omega
  have hts' : ∀ t ∈ ts, Rowed (fun r => Plain E.cfg r ∧ isScalar r = true) E (S.columns E.cfg) t :=
    fun t ht => rowed_weaken (fun r hr => ⟨hr.1.1, hr.2⟩) (hts t ht)
  obtain ⟨a1, a2, a3⟩ := call_rows hC.agrees hC.colourOn hC.colourOff hC.sign (by omega) hts' hC.ground hC.col hC.start hlim
  have hsim : ∀ t ∈ .lit (signBytes E w.promptN) :: ts, Simple E adv v.width t := by
    intro t ht
    rcases List.mem_cons.mp ht with rfl | ht
    · exact .inr (hC.sign.text _ (signBytes_text E w.promptN))
    · exact (hts' t ht).simple hC.sign (by omega)
  obtain ⟨rs, hrs⟩ := reads_all hC.agrees hC.colourOn hC.colourOff (by omega) hsim
  have hcut : v.run adv (bytesOf E.cfg (.lit (signBytes E w.promptN) :: ts ++ farewell E.lineFeed r.err)) =
      (v.run adv (bytesOf E.cfg (.lit (signBytes E w.promptN) :: ts))).run adv (bytesOf E.cfg (farewell none r.err)) := by
    rw [hlf]
    unfold bytesOf
    rw [List.flatMap_append, hrs.cut]
  obtain ⟨b1, b2, b3, b4, b5, b6⟩ := farewell_run (E := E) (adv := adv) a3.mode he
  obtain ⟨qs, hqs⟩ := farewell_reads (E := E) he
  refine ⟨_, _, e, ⟨rs ++ qs, by rw [hlf]; unfold bytesOf at hqs ⊢; rw [List.flatMap_append]; exact hrs.append hqs⟩, a1, by rw [hcut]; exact b1, by rw [hcut]; exact b2, by rw [hcut]; exact b3, by rw [hcut]; exact b4, ?_, by rw [hcut]; exact b6, ?_⟩
  · rw [hcut, b5, a1.width, base_width]
  · intro y z hu hsuf g1 g2 hsh
    have htop : y.topColumn = S.columns E.cfg ∧ ∀ m ∈ y.mojis, ∃ r, (Occurring E D ks r ∧ isScalar r = true) ∧ m = rune2moji E.cfg r 0 := by
      rw [g1]
      refine ⟨?_, fun m hm => ordinary_units hb ho.scalar.sources (fun r hr => hr.1.1) hu m (g2 m hm)⟩
      rw [(ordinary_easy hb ho.modest hu).top]
      exact hC.sign.width _
    have hd := (hsh { col := v.col, cells := fun _ => anything, high := 0 }).displays a3 (fun r hr => ⟨hr.1.1, hr.2⟩) htop.2
      (by unfold St.suffixList; rw [hsuf]; intro m hm; cases hm)
    have hview : y.viewWidth = y.termWidth - S.columns E.cfg - 3 := by unfold St.viewWidth; rw [htop.1]
    rw [hview, htop.1] at hd
    obtain ⟨-, away, left, right, rest, more, c1, c2, c3, c4, c5, -, c7⟩ := hd
    have hmore : more = [] := by
      rcases c3 with c3 | ⟨-, c3⟩
      · exact c3
      · have : runesOf (lineText y.suffixList) = [] := by unfold St.suffixList; rw [hsuf]; exact runesOf_nil
        rw [this] at c3
        exact List.prefix_nil.mp c3
    subst hmore
    rw [List.append_nil] at c4 c7
    exact ⟨a2.seen, away, left, right, rest, c1, c2, c4, c5, c7⟩

/-- With the line if one was entered. -/
theorem call_end (h : PlainDesk E w D t n clip ks) (hC : Console S E w D t clip ks adv v) (hl : ∀ k ∈ ks, D.verb k ≠ .redraw)
    (hlf : E.lineFeed = none) {s : St} {r : RLRes} (hrl : readLine E w = .ok (s, r)) (he : ∀ e, r.err ≠ .tty e) :
    ∃ o u, s.out = w.out ++ o ∧ (∃ rs, Reads (bytesOf E.cfg o) rs) ∧ Level (S.base v) u ∧ (v.run adv (bytesOf E.cfg o)).cells = u.newline.cells ∧
      (v.run adv (bytesOf E.cfg o)).row = u.newline.row ∧ (v.run adv (bytesOf E.cfg o)).col = 0 ∧
      (v.run adv (bytesOf E.cfg o)).mode = .ground ∧ (v.run adv (bytesOf E.cfg o)).width = v.width ∧
      (v.run adv (bytesOf E.cfg o)).height = u.newline.height ∧
      (r.err = .nil → RowShows S E.cfg adv u u.row (s.termWidth - S.columns E.cfg - 3) (runesOf s.text) s.cursor.toNat) := by
  have hb := h.setting.builtin
  obtain ⟨ts, u, e, a2, a3, a4, a5, a6, a7, a8, a9, a10⟩ := call_closes h hC hl hlf hrl he
  refine ⟨_, u, by rw [e, List.append_assoc], a2, a3, a4, a5, a6, a7, a8, a9, fun hn => ?_⟩
  obtain ⟨hsuf, ⟨z, hu, g1, g2, -⟩, t2, e3, hsh⟩ := entered_shows (console_sane hC) hb (ordinary_steady hb (console_ordinary h hC)) hrl hn
  obtain rfl : .lit (signBytes E w.promptN) :: ts = t2 := by
    have := List.append_cancel_right (e.symm.trans e3)
    exact List.append_cancel_left this
  exact a10 s z hu hsuf g1 (by rw [g2]; exact fun _ h => h) hsh

/-- What is read next is set up in the same way for the terminal. -/
theorem console_next {keep : List Char → Bool} (h : PlainDesk E w D t n clip ks) (hC : Console S E w D t clip ks adv v) {s : St} {r : RLRes}
    (hrl : readLine E w = .ok (s, r)) (hn : r.err = .nil) {l : List Char} {p : Page} {rest : List (List Char)} (hl : r.text = utf8 l)
    (hclip : s.clip = p.clip.map utf8) (hsuf : rest <:+ ks) {v' : Vt} (hm : v'.mode = .ground) (hc : v'.col = 0) (hw : v'.width = v.width) :
    Console S { E with history := if keep l then E.history ++ [r.text] else E.history } s.world
      { D with history := if keep l then D.history ++ [l] else D.history } t p.clip rest adv v' := by
  have hb := h.setting.builtin
  obtain ⟨hot, hfrom⟩ := result_from hb (console_ordinary h hC).sources hrl
  obtain ⟨-, x, -, -, -, hsub⟩ := readLine_takes hb hrl hn
  have hin : s.input.Sublist w.input := (List.sublist_cons_self _ _).trans hsub
  have hwid : s.termWidth = w.termWidth ∨ .resize s.termWidth ∈ w.input := by
    obtain ⟨t', htr', hst⟩ := readLine_reachable hrl
    have hbb := fun k => BuiltinKeys.builtin hb k
    exact ((reachable_says hbb true htr').trans ((step_says hbb t').ok hst)).width
  have hone : ∀ {u : List Char}, (∃ k ∈ ks, D.verb k = .exchange) → Over (Occurring E D ks) (utf8 u) → ∀ c ∈ u, plainColumns E.cfg c.toNat = 1 := by
    intro u hx hu c hc
    unfold Over at hu
    rw [runesOf_utf8] at hu
    exact (hu c.toNat (List.mem_map.mpr ⟨c, hc, rfl⟩)).2 hx
  refine { hC with
    begins := fun k hk => hC.begins k (hsuf.subset hk), narrow := fun hx => ?_, narrowGuess := fun ⟨k, hk, hx⟩ => hC.narrowGuess ⟨k, hsuf.subset hk, hx⟩, ground := hm, col := by omega, sign := ?_, start := .inr hc, wide := ?_,
    resized := fun v hv => by rw [hw]; exact hC.resized v (hin.subset hv) }
  · obtain ⟨k0, hk0, he0⟩ := hx
    have hx : ∃ k ∈ ks, D.verb k = .exchange := ⟨k0, hsuf.subset hk0, he0⟩
    clear he0 hk0
    obtain ⟨h1, h2, h3, h4⟩ := hC.narrow hx
    refine ⟨?_, fun k hk => h2 k (hsuf.subset hk), fun k hk => h3 k (hsuf.subset hk), fun k hk => h4 k (hsuf.subset hk)⟩
    rintro u (hu | hu | hu)
    · exact h1 u (.inl hu)
    · dsimp only at hu
      split at hu
      · rcases List.mem_append.mp hu with hu | hu
        · exact h1 u (.inr (.inl hu))
        · rw [List.mem_singleton] at hu
          subst hu
          exact hone hx (hl ▸ hot)
      · exact h1 u (.inr (.inl hu))
    · exact hone hx (hfrom.clip (utf8 u) (by show s.clip = _; rw [hclip, hu]; rfl))
  · rw [hw]
    exact ⟨hC.sign.width, hC.sign.plain, hC.sign.text, hC.sign.first, hC.sign.again⟩
  · show s.termWidth ≤ v'.width
    rw [hw]
    rcases hwid with hx | hx
    · rw [hx]; exact hC.wide
    · exact hC.resized _ hx

end Readline
