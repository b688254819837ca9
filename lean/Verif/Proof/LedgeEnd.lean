import Verif.Proof.Ledge
import Verif.Proof.Lone
/-!
# The end of a call with a prompt of two rows
-/
namespace Readline
open Spec

variable {E : Env} {w : World} {D : Desk} {t : List Char} {n : Nat} {clip : Option (List Char)} {ks : List (List Char)} {adv : Rune → Int} {v : Vt}
  {C : Cfg} {top mark : List Stroke} {rooms : Int → Prop}

/-- What is needed of a call with a prompt of two rows. -/
theorem ledge_ordinary (ht : ∀ s ∈ top, s.Fine E.cfg) (hm : ∀ s ∈ mark, s.Fine E.cfg) (h : PlainDesk (markOnly E mark) w D t n clip ks)
    (hC : Console (markSign mark) (markOnly E mark) w D t clip ks adv v) :
    Ordinary (Occurring (markOnly E mark) D ks) (ledged E top mark) w ∧ Plainly (Occurring (markOnly E mark) D ks) (ledged E top mark) w := by
  have hd := ledge_desk ht hm h (hC.sign.width w.promptN)
  have ho1 := console_ordinary h hC
  have hx1 := console_plainly h hC
  refine ⟨?_, { hx1 with }⟩
  exact {
    sources := { ho1.sources with }, plain := ho1.plain, written := ho1.written, prompt := hd.prompt, room := hd.room, resized := hd.resized,
    errors := ho1.errors, swap := ho1.swap }

/-- The rows when the call ends with a key.  After Ctrl-C the line may be gone, if there was a prediction. -/
theorem ledge_left (ht : ∀ s ∈ top, s.Fine E.cfg) (hm : ∀ s ∈ mark, s.Fine E.cfg) (h : PlainDesk (markOnly E mark) w D t n clip ks)
    (hC : Console (markSign mark) (markOnly E mark) w D t clip ks adv v) (hft : textColumns E.cfg (top.flatMap Stroke.seen) ≤ v.width)
    (hl : ∀ k ∈ ks, D.verb k ≠ .redraw) (hlf : E.lineFeed = none) {s : St} {r : RLRes}
    (hrl : readLine (ledged E top mark) w = .ok (s, r)) (he : ∀ e, r.err ≠ .tty e) :
    ∃ a p, ∃ q : Page, ∃ rest o u room, oneLine D t n clip ks = (a, p, rest) ∧ Remains D ks a p q.text q.left.length ∧ a.answer = some r ∧ s.out = w.out ++ o ∧ (∃ rs, Reads (bytesOf E.cfg o) rs) ∧
      Level (v.run adv (top.flatMap Stroke.bytes)).newline u ∧ (v.run adv (bytesOf E.cfg o)).cells = u.newline.cells ∧
      (v.run adv (bytesOf E.cfg o)).row = u.newline.row ∧ (v.run adv (bytesOf E.cfg o)).col = 0 ∧
      (v.run adv (bytesOf E.cfg o)).mode = .ground ∧ (v.run adv (bytesOf E.cfg o)).width = v.width ∧
      (v.run adv (bytesOf E.cfg o)).height = u.newline.height ∧ (room = w.termWidth ∨ .resize room ∈ w.input) ∧
      RowShows (markSign mark) E.cfg adv u u.row (room - (markSign mark).columns E.cfg - 3) (q.text.map Char.toNat) q.left.length := by
  have hw := hC.sign.width w.promptN
  have hd := ledge_desk ht hm h hw
  have hb := hd.setting.builtin
  have hA : AgreesPlain E.cfg adv := hC.agrees
  obtain ⟨ho, hx⟩ := ledge_ordinary ht hm h hC
  have hnn : ∀ m : Moji, 0 ≤ m.width E.cfg := width_nonneg hC.width hC.zwj
  have hS := blur_sane (E := ledged E top mark) (adv := adv) (W := v.width) hnn
  have hst := ordinary_steady hb ho
  have hroom := h.room
  have hcols : promptWidth (markOnly E mark) w.promptN = (markSign mark).columns E.cfg := hw
  have hwide := hC.wide
  have h0 : 0 ≤ (markSign mark).columns E.cfg := hC.sign.nonneg
  have hfm : (markSign mark).columns E.cfg < v.width := by omega
  have hv0 : v.col = 0 := hC.start.resolve_left (fun h => by cases h)
  obtain ⟨ts, e, hts⟩ := ending_rowed (console_unfed hd hl) hb ho.scalar hx.scalar (ledged_width ht hm) hrl he
  obtain ⟨t1, e1, hin⟩ := C27_partial hS hb hst hC.wide hC.resized hrl (he _)
  have e2 : s.out = w.out ++ (.lit (signBytes (ledged E top mark) w.promptN) :: ts ++ farewell (ledged E top mark).lineFeed r.err) := by rw [e]; simp
  obtain rfl := List.append_cancel_left (e2.symm.trans e1)
  have hlim : (Row.run E.cfg (blur E adv v.width) { col := v.col, cells := fun _ => anything, high := 0 }
      (.lit (signBytes (ledged E top mark) w.promptN) :: ts)).high ≤ v.width := by
    have h1 := hin { col := v.col, cells := fun _ => anything, high := 0 }
    rw [run_append] at h1
    refine Int.le_trans (row_high_run (E := ledged E top mark) (farewell E.lineFeed r.err) _) (Int.le_trans h1 ?_)
    show max (0 : Int) (v.width - 3) ≤ v.width
    omega
  obtain ⟨a1, a2, a3, rs, hrs⟩ := ledge_rows (v := v) (n := w.promptN) hA hC.colourOn hC.colourOff ht hm hft hfm
    (fun t ht => rowed_weaken (fun r hr => ⟨hr.1.1, hr.2⟩) (hts t ht)) hC.ground hv0 hlim
  have hcut : v.run adv (bytesOf E.cfg (.lit (signBytes (ledged E top mark) w.promptN) :: ts ++ farewell E.lineFeed r.err)) =
      (v.run adv (bytesOf E.cfg (.lit (signBytes (ledged E top mark) w.promptN) :: ts))).run adv (bytesOf E.cfg (farewell none r.err)) := by
    rw [hlf]
    unfold bytesOf at hrs ⊢
    rw [List.flatMap_append, hrs.cut]
  obtain ⟨b1, b2, b3, b4, b5, b6⟩ := farewell_run (E := E) (adv := adv) a3.mode he
  obtain ⟨qs, hqs⟩ := farewell_reads (E := E) he
  -- the row
  obtain ⟨y, z, k, rest0, hz, hi, hends, hsuf, g1, g3, g5, t2, e3, hsh⟩ := abandoned_shows hS hb hst hrl he
  obtain rfl : .lit (signBytes (ledged E top mark) w.promptN) :: ts = t2 := by
    have := List.append_cancel_right (e.symm.trans e3)
    exact List.append_cancel_left this
  obtain ⟨a, p, rest, h1, h2, hd'⟩ := left_page hd.setting hz hends he
  have htx : z.text = utf8 p.text := by rw [← hd'.text]; exact St.text_eq z
  have hcur : z.cursor = (p.left.length : Int) := hd'.cursor
  have hmo : ∀ x : St, x.text = (x.mojis.map Moji.write).flatten := fun x => by rw [St.text_units]; simp [St.units, St.mojis, Function.comp_def]
  have hguess : z.suffix ≠ none → D.guessing = true := by
    intro hx
    rw [← h.guessing]
    exact decide_eq_true fun hp => hx (C20_off (E := ledged E top mark) hb hp hz).1
  have hfresh : D.guessing = true → (∀ k ∈ ks, D.verb k ∉ [.killRight, .killAll, .exchange, .older, .newer]) → z.suffix = none → p.text = [] := by
    intro hg hf hx
    have hp : E.predictColor.1 ≠ [] := by
      have := h.guessing
      rw [hg] at this
      exact of_decide_eq_true this
    have := (C20_fresh_partial (E := ledged E top mark) hb hp (fun q hq => by
      have : q ∈ keysIn w.input := mem_keysIn.mp hq
      rw [h.keys] at this
      obtain ⟨k, hk, rfl⟩ := List.mem_map.mp this
      exact stales_means (hd.means k hk) (hf k hk)) hz).1
    rw [hx] at this
    by_cases hz0 : z.units = []
    · have h0 : z.text = [] := by rw [St.text_units, hz0]; rfl
      rw [htx] at h0
      exact Classical.byContradiction fun hne => utf8_ne_nil hne h0
    · rw [if_neg hz0] at this; cases this
  have hai : a = .interrupted ↔ r.err = .ctrlC := by
    cases a <;> cases h2 <;> simp
  obtain ⟨q, hq, hsub, htxy, hcy⟩ : ∃ q : Page, Remains D ks a p q.text q.left.length ∧ (∀ m ∈ y.mojis, m ∈ z.mojis) ∧ y.text = utf8 q.text ∧
      y.cursor = (q.left.length : Int) := by
    rcases g5 with ⟨g5, g6, g7⟩ | ⟨g5, g6, g7, g8⟩
    · refine ⟨p, ⟨.inl ⟨rfl, rfl⟩, fun hf => ?_⟩, g5 ▸ fun _ h => h, by rw [hmo, g5, ← hmo, htx], by rw [g6, hcur]⟩
      split
      · rename_i hx
        rcases hf with hf | hf
        · rw [hf] at hx; cases hx.1
        · exact hfresh hx.1 hf (g7 (hai.mp hx.2))
      · rfl
    · refine ⟨{ p with left := [], right := [] }, ⟨.inr ⟨hguess g6, hai.mpr g5, rfl, rfl⟩, fun _ => ?_⟩,
        (fun m hm => by rw [g7] at hm; exact absurd hm List.not_mem_nil), by rw [hmo, g7]; rfl, by rw [g8]; rfl⟩
      rw [if_pos ⟨hguess g6, hai.mpr g5⟩]
      rfl
  refine ⟨a, p, q, rest, _, _, z.termWidth, h1, hq, h2, e2, ⟨rs ++ qs, ?_⟩, a1, hcut ▸ b1, hcut ▸ b2, hcut ▸ b3, hcut ▸ b4, ?_, hcut ▸ b6,
    reachable_width (BuiltinKeys.builtin hb) hz, ?_⟩
  · show Reads (bytesOf E.cfg (_ :: ts ++ farewell E.lineFeed r.err)) _
    rw [hlf]
    unfold bytesOf at hqs ⊢
    rw [List.flatMap_append]
    exact hrs.append hqs
  · rw [show (ledged E top mark).lineFeed = E.lineFeed from rfl, hcut, b5, a1.width, newline_width, (strokes_level hA ht hC.ground hv0 hft).2.1.width]
  · have htop : y.topColumn = (markSign mark).columns E.cfg ∧
        ∀ m ∈ y.mojis, ∃ r, (Occurring (markOnly E mark) D ks r ∧ isScalar r = true) ∧ m = rune2moji E.cfg r 0 := by
      rw [g1]
      refine ⟨?_, fun m hm => ordinary_units hb ho.scalar.sources (fun r hr => hr.1.1) hz m (hsub m hm)⟩
      rw [(ordinary_easy hb ho.modest hz).top]
      exact ledged_width ht hm _
    have hdis := (hsh { col := v.col, cells := fun _ => anything, high := 0 }).displays a3 (fun r hr => ⟨hr.1.1, hr.2⟩) htop.2
      (by unfold St.suffixList; rw [hsuf]; intro m hm; cases hm)
    have hview : y.viewWidth = y.termWidth - (markSign mark).columns E.cfg - 3 := by unfold St.viewWidth; rw [htop.1]
    rw [hview, htop.1, g3, htxy, runesOf_utf8, hcy] at hdis
    obtain ⟨-, away, left, right, rest, more, c1, c2, c3, c4, c5, -, c7⟩ := hdis
    have hmore : more = [] := by
      rcases c3 with c3 | ⟨-, c3⟩
      · exact c3
      · have : runesOf (lineText y.suffixList) = [] := by unfold St.suffixList; rw [hsuf]; exact runesOf_nil
        rw [this] at c3
        exact List.prefix_nil.mp c3
    subst hmore
    rw [List.append_nil] at c4 c7
    exact ⟨a2.seen, away, left, right, rest, c1, c2, c4, c5, c7⟩

/-- **One line behind a prompt of two rows**, and then what is printed. -/
theorem ledge_end (ht : ∀ s ∈ top, s.Fine E.cfg) (hm : ∀ s ∈ mark, s.Fine E.cfg) (h : PlainDesk (markOnly E mark) w D t n clip ks)
    (hC : Console (markSign mark) (markOnly E mark) w D t clip ks adv v) (hft : textColumns E.cfg (top.flatMap Stroke.seen) ≤ v.width)
    (hl : ∀ k ∈ ks, D.verb k ≠ .redraw) (hlf : E.lineFeed = none) (hv : v.row < v.height) (hcl : Clear v)
    (hrooms : ∀ x, x = w.termWidth ∨ .resize x ∈ w.input → rooms (x - (markSign mark).columns E.cfg - 3)) {s : St} {r : RLRes}
    (hrl : readLine (ledged E top mark) w = .ok (s, r)) (he : ∀ e, r.err ≠ .tty e) (f : Ending → List (List Char))
    (hf : ∀ a, a.answer = some r → ∀ x ∈ f a, ∀ c ∈ x, Readable E.cfg c.toNat) :
    ∃ a p, ∃ q : Page, ∃ rest o, oneLine D t n clip ks = (a, p, rest) ∧ Remains D ks a p q.text q.left.length ∧ a.answer = some r ∧
      s.out ++ (f a).map (fun x => .lit (utf8 (x ++ ['\n']))) = w.out ++ o ∧
      LedgeRows (markSign mark) E.cfg adv rooms (top.flatMap Stroke.seen) v (v.run adv (bytesOf E.cfg o)) q (f a) := by
  obtain ⟨a, p, q, rest, o, u, room, h1, hq, h2, h3, ⟨rs, hrs⟩, a3, a4, a5, a6, a7, a8, a9, hroom, hrow⟩ :=
    ledge_left ht hm h hC hft hl hlf hrl he
  have hA : AgreesPlain E.cfg adv := hC.agrees
  have hv0 : v.col = 0 := hC.start.resolve_left (fun h => by cases h)
  obtain ⟨-, l2, -⟩ := strokes_level hA ht hC.ground hv0 hft
  have hir : (v.run adv (top.flatMap Stroke.bytes)).row < (v.run adv (top.flatMap Stroke.bytes)).height := by rw [l2.row, l2.height]; exact hv
  obtain ⟨t1, t2, t3⟩ := level_topped hA ht hC.ground hv0 hv hft a3
  have hur : u.row < u.height := by rw [a3.row, a3.height]; exact newline_row _ hir
  obtain ⟨c1, c2⟩ := newline_clear hur (level_clear a3 (newline_clear hir (level_clear l2 hcl)).1)
  have hl2 : Lifted u (v.run adv (bytesOf E.cfg o)) 1 := by
    intro k hk
    rw [a4, a5]
    exact newline_lifted hur k hk
  have hat : AtRow (v.run adv (bytesOf E.cfg o)) :=
    ⟨a7, a6, by rw [a5, a9]; exact newline_row u hur, by intro y hy x; rw [a5] at hy; rw [a4]; exact c1 y hy x⟩
  have hroom' := hC.room h
  have hwide := hC.wide
  obtain ⟨rows, b1, b2, b3, b4, b5⟩ := run_prints_lines (adv := adv) (xs := f a) (v := v.run adv (bytesOf E.cfg o))
    (fun x hx' c hc => by rw [a8]; exact readable_prints hC (by omega) (hf a h2 x hx' c hc)) hat (by rw [a8]; omega)
    (by intro x; rw [a4, a5]; exact c2 x)
  have hbytes : bytesOf E.cfg (o ++ (f a).map fun x => Tok.lit (utf8 (x ++ ['\n']))) = bytesOf E.cfg o ++ ((f a).map fun x => utf8 (x ++ ['\n'])).flatten := by
    unfold bytesOf
    rw [List.flatMap_append, List.flatMap_map, List.flatten_eq_flatMap, List.flatMap_map]
    rfl
  refine ⟨a, p, q, rest, o ++ (f a).map fun x => .lit (utf8 (x ++ ['\n'])), h1, hq, h2, by rw [h3, List.append_assoc], ?_⟩
  rw [hbytes, hrs.cut]
  rw [a8] at b1
  have key : ∀ k, 1 ≤ k → ((v.run adv (bytesOf E.cfg o)).run adv ((f a).map fun x => utf8 (x ++ ['\n'])).flatten).cells
      (((v.run adv (bytesOf E.cfg o)).run adv ((f a).map fun x => utf8 (x ++ ['\n'])).flatten).row - (rows.length + k)) = u.cells (u.row - (k - 1)) := by
    intro k hk
    rw [b5 k hk, ← hl2 (k - 1) (by omega)]
    congr 1
    omega
  refine ⟨b2, b3, rows, b1, b4, ⟨_, hrooms _ hroom, ?_⟩, fun x h h' => ?_, fun x h => ?_, fun k hk => ?_⟩
  · have := key 1 (by decide)
    rw [show u.row - ((1 : Int) - 1) = u.row by omega] at this
    unfold RowShows Sign.At at hrow ⊢
    rw [this]
    exact hrow
  · rw [key 2 (by decide)]
    exact t1 x h h'
  · rw [key 2 (by decide)]
    exact t2 x h
  · rw [show (rows.length : Int) + 2 + k = rows.length + (2 + k) by omega, key (2 + k) (by omega), show u.row - (2 + k - 1) = u.row - (1 + k) by omega]
    exact t3 k hk

end Readline
