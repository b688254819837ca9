import Verif.Proof.Reply
import Verif.Props.C82
import Verif.Props.C20
/-!
# The rows of a program that says what it has read
-/
namespace Readline
open Spec

variable {E : Env} {w : World} {D : Desk} {t : List Char} {n : Nat} {clip : Option (List Char)} {ks : List (List Char)}
  {adv : Rune → Int} {v : Vt} {rooms : Int → Prop} {S : Sign}

/-! ## Printable characters -/

/-- The texts of a session are over every kind of ordinary characters that contains those of the keys and the texts. -/
theorem desk_sources {P : Nat → Prop} (h : PlainDesk E w D t n clip ks) (hP : ∀ r, P r → Plain E.cfg r) (hq : P 0x22) (hpr : PredictsOver P E)
    (ht : ∀ x, x = E.default ∨ x ∈ E.history ∨ w.clip = some x ∨ FromKey E w x → Over P x) : Sources P E w := by
  have keyOk : ∀ k, FromKey E w k → Over P (inserted k) := fun k h' => over_inserted (ht k (.inr (.inr (.inr h'))))
  have nj : ∀ r, P r → E.cfg.zwjOk = true → r = 0x200C ∨ r = 0x200D → False := fun r hr hz h => (hP r hr).alone (.inl ⟨hz, h⟩)
  refine ⟨ht _ (.inl rfl), fun t h => ht t (.inr (.inl h)), fun t h => ht t (.inr (.inr (.inl h))), fun c t u hu => ?_, hpr, keyOk,
    fun q K _ hc' => absurd hc' (h.noCompletion q K), fun _ _ _ => hq, fun hz hj => ?_, fun hz k hk' hj => ?_⟩
  · rw [h.clipSet] at hu
    injection hu with hu
    exact .inl hu.symm
  · rcases hj with hj | hj
    · exact (nj _ hj hz (.inl rfl)).elim
    · exact (nj _ hj hz (.inr rfl)).elim
  · have ho := keyOk k hk'
    cases hi : inserted k with
    | nil => exact ValidUtf8.nil
    | cons x t =>
      rw [hi] at hj ho
      exact (nj _ (ho _ (by rw [runesOf_cons]; simp)) hz hj).elim

/-- An ordinary character that is printable. -/
def Spec.Readable (C : Cfg) (r : Nat) : Prop := Plain C r ∧ 0x20 ≤ r

theorem over_readable {C : Cfg} {u : List Char} : Over (Readable C) (utf8 u) ↔ ∀ c ∈ u, Plain C c.toNat ∧ 0x20 ≤ c.toNat := by
  unfold Over
  rw [runesOf_utf8]
  simp [Readable]

theorem legible_sources (h : PlainDesk E w D t n clip ks) (hg : Legible D t clip ks) : Sources (Readable E.cfg) E w := by
  refine desk_sources h (fun r hr => hr.1) ⟨h.quote, by decide⟩ (predicts_over h.predictor h.history (h.plainGuess.and hg.guess)
    fun u hu c hc => ⟨h.plain u (.inr (.inl hu)) c hc, hg.texts u (.inr (.inl hu)) c hc⟩) ?_
  rintro x (rfl | hx | hx | hx)
  · rw [h.default]; exact over_readable.mpr fun c hc => ⟨h.plain t (.inl rfl) c hc, hg.texts t (.inl rfl) c hc⟩
  · rw [h.history, List.mem_map] at hx
    obtain ⟨u, hu, rfl⟩ := hx
    exact over_readable.mpr fun c hc => ⟨h.plain u (.inr (.inl hu)) c hc, hg.texts u (.inr (.inl hu)) c hc⟩
  · rw [h.clipboard] at hx
    cases hcl : clip with
    | none => rw [hcl] at hx; cases hx
    | some u => rw [hcl] at hx; cases hx; exact over_readable.mpr fun c hc => ⟨h.plain u (.inr (.inr hcl)) c hc, hg.texts u (.inr (.inr hcl)) c hc⟩
  · rcases hx with ⟨q, hq, hc⟩ | ⟨⟨q, hq, hc⟩, hk⟩
    · obtain ⟨k, hk, rfl⟩ := h.setting.key hq
      obtain ⟨u, hv, rfl⟩ := means_typed (hc ▸ h.means k hk)
      exact over_readable.mpr fun c hc => ⟨h.plainTyped k hk u hv c hc, hg.typed k hk u hv c hc⟩
    · obtain ⟨k', hk', rfl⟩ := h.setting.key hq
      exact absurd (means_literally (hc ▸ h.means k' hk')) (hg.literal k' hk')

theorem legible_next {keep : List Char → Bool} (h : PlainDesk E w D t n clip ks) (hg : Legible D t clip ks) {s : St} {r : RLRes}
    (hrl : readLine E w = .ok (s, r)) {l : List Char} {p : Page} {rest : List (List Char)} (hl : r.text = utf8 l)
    (hclip : s.clip = p.clip.map utf8) (hsuf : rest <:+ ks) :
    (∀ c ∈ l, Plain E.cfg c.toNat ∧ 0x20 ≤ c.toNat) ∧
      Legible { D with history := if keep l then D.history ++ [l] else D.history } t p.clip rest := by
  obtain ⟨h1, h2⟩ := result_from h.builtin (legible_sources h hg) hrl
  have h1 := over_readable.mp (hl ▸ h1)
  refine ⟨h1, ?_, fun k hk => hg.typed k (hsuf.subset hk), fun k hk => hg.literal k (hsuf.subset hk), hg.guess⟩
  rintro u (hu | hu | hu)
  · exact hg.texts u (.inl hu)
  · dsimp only at hu
    split at hu
    · rcases List.mem_append.mp hu with hu | hu
      · exact hg.texts u (.inr (.inl hu))
      · rw [List.mem_singleton] at hu
        subst hu
        exact fun c hc => (h1 c hc).2
    · exact hg.texts u (.inr (.inl hu))
  · exact fun c hc => (over_readable.mp (h2.clip (utf8 u) (by show s.clip = _; rw [hclip, hu]; rfl)) c hc).2

theorem readable_prints (hC : Console S E w D t clip ks adv v) (hr : 1 < w.termWidth) {r : Nat} (h : Readable E.cfg r) :
    0x20 ≤ r ∧ ¬ (0x7F ≤ r ∧ r ≤ 0x9F) ∧ 0 ≤ adv r ∧ adv r ≤ v.width := by
  have hw := hC.wide
  have hc := h.1.columns
  have h20 := h.2
  refine ⟨h.2, fun hx => ?_, ?_⟩
  · rw [hC.agrees.control r hx.1 hx.2] at hc
    omega
  · have : 1 ≤ adv r ∧ adv r ≤ 2 := by
      by_cases hp : Padded E.cfg r
      · exact hC.agrees.padded r h.1 hp
      · rw [hC.agrees.plain r h.1 h.2 hp]
        unfold plainColumns
        split <;> omega
    omega

/-! ## What is printed -/

theorem Spec.PlainDesk.print (h : PlainDesk E w D t n clip ks) (b : Bytes) : PlainDesk E (w.print b) D t n clip ks := { h with }

theorem Spec.Console.print (h : Console S E w D t clip ks adv v) (b : Bytes) {v' : Vt} (h1 : v'.mode = .ground) (h2 : v'.col = 0)
    (h3 : v'.width = v.width) : Console S E (w.print b) D t clip ks adv v' :=
  { h with ground := h1, col := by omega, sign := by rw [h3]; exact h.sign, start := .inr h2, wide := by rw [h3]; exact h.wide, resized := by rw [h3]; exact h.resized }

theorem replyText_utf8 (l : List Char) : replyText (utf8 l) = utf8 ("TEXT=".toList ++ l ++ ['\n']) := by
  rw [utf8_append, utf8_append]
  have h1 : utf8 "TEXT=".toList = [0x54, 0x45, 0x58, 0x54, 0x3D] := by decide +kernel
  have h2 : utf8 ['\n'] = [0x0A] := by decide +kernel
  rw [h1, h2]
  rfl

/-- The rows after a text that ends the line was printed at the beginning of an empty row. -/
theorem run_prints_line {x : List Char} {b : Bytes} (hb : b = utf8 (x ++ ['\n']))
    (hx : ∀ c ∈ x, 0x20 ≤ c.toNat ∧ ¬ (0x7F ≤ c.toNat ∧ c.toNat ≤ 0x9F) ∧ 0 ≤ adv c.toNat ∧ adv c.toNat ≤ v.width)
    (hm : v.mode = .ground) (hr : v.row < v.height) (hc : Clear v) (hcol : v.col = 0) (hw : 0 ≤ v.width) (hrow : ∀ x, v.cells v.row x = none) :
    (∃ rs, Reads b rs) ∧ ∃ rows, Folded adv v.width (x.map Char.toNat) rows ∧ (v.run adv b).mode = .ground ∧
      (v.run adv b).row < (v.run adv b).height ∧ Clear (v.run adv b) ∧ (v.run adv b).col = 0 ∧ (v.run adv b).width = v.width ∧
      (∀ x, (v.run adv b).cells (v.run adv b).row x = none) ∧ Above adv (v.run adv b) rows.length rows ∧
      ∀ k, 1 ≤ k → (v.run adv b).cells ((v.run adv b).row - (rows.length + k)) = v.cells (v.row - k) := by
  subst hb
  have e : v.run adv (utf8 (x ++ ['\n'])) = v.feed adv (x.map Char.toNat ++ [0x0A]) := by
    unfold Vt.run Vt.feed
    rw [runesOf_utf8, List.map_append]
    rfl
  obtain ⟨rows, g1, g2, g3, g4, g5, g6, g7, g8⟩ := prints_line (adv := adv) (v := v) (rs := x.map Char.toNat)
    (by simpa using hx) hm hr hc hcol hw hrow
  rw [e]
  exact ⟨⟨_, Reads.valid ⟨_, rfl⟩⟩, rows, g1, g2, g3, g4, g5, feed_width _ _, g6, g7, g8⟩

theorem entered_clip (h : Setting E w D t n clip ks) {s : St} {r : RLRes} (hrl : readLine E w = .ok (s, r)) (hn : r.err = .nil)
    {l : List Char} {p : Page} {rest : List (List Char)} (ho : oneLine D t n clip ks = (.entered l, p, rest)) : s.clip = p.clip.map utf8 := by
  obtain ⟨l', p', rest', g1, -, -, g4, -⟩ := line_entered h hrl hn
  rw [ho] at g1
  injection g1 with g1 g1'
  injection g1' with g1' g1''
  rw [g1']
  exact g4

/-- **A line and what is printed about it**. -/
theorem call_said {keepC : List Char → Bool} {v0 : Vt} (h : PlainDesk E w D t n clip ks) (hC : Console S E w D t clip ks adv v)
    (hg : Legible D t clip ks) (hl : ∀ k ∈ ks, D.verb k ≠ .redraw) (hlf : E.lineFeed = none) (hv : v.row < v.height) (hcl : Clear v)
    (hrooms : ∀ x, x = w.termWidth ∨ .resize x ∈ w.input → rooms (x - S.columns E.cfg - 3)) {ps : List Page} (hT : Dialogue S E.cfg adv rooms v0 v (1 - S.drop) ps)
    {s : St} {r : RLRes} (hrl : readLine E w = .ok (s, r)) (hn : r.err = .nil) :
    ∃ l p rest o, oneLine D t n clip ks = (.entered l, p, rest) ∧ r.text = utf8 l ∧ s.out ++ [.lit (replyText r.text)] = w.out ++ o ∧
      (∃ rs, Reads (bytesOf E.cfg o) rs) ∧
      PlainDesk { E with history := if keepC l then E.history ++ [r.text] else E.history } (s.world.print (replyText r.text))
        { D with history := if keepC l then D.history ++ [l] else D.history } t p.left.length p.clip rest ∧
      Console S { E with history := if keepC l then E.history ++ [r.text] else E.history } (s.world.print (replyText r.text))
        { D with history := if keepC l then D.history ++ [l] else D.history } t p.clip rest adv (v.run adv (bytesOf E.cfg o)) ∧
      Legible { D with history := if keepC l then D.history ++ [l] else D.history } t p.clip rest ∧
      (v.run adv (bytesOf E.cfg o)).row < (v.run adv (bytesOf E.cfg o)).height ∧ Clear (v.run adv (bytesOf E.cfg o)) ∧
      (∀ x, x = s.termWidth ∨ .resize x ∈ s.input → rooms (x - S.columns E.cfg - 3)) ∧ rest <:+ ks ∧ rest.length < ks.length ∧ s.input.length < w.input.length ∧
      Dialogue S E.cfg adv rooms v0 (v.run adv (bytesOf E.cfg o)) (1 - S.drop) (p :: ps) := by
  obtain ⟨l, p, rest, o, g1, g2, g3, ⟨rs, hrs⟩, g4, g5, g6, g7, g8, g9, g10, ⟨⟨room, g11, g11'⟩, -⟩, g12⟩ :=
    call_entered (keepC := keepC) (rooms := rooms) (ps := []) h hC hl hlf hv hrooms trivial hrl hn
  obtain ⟨o', u, a1, a2, a3, a4, a5, a6, a7, a8, a9, -⟩ := call_end h hC hl hlf hrl (by rw [hn]; intro e; simp)
  obtain rfl := List.append_cancel_left (g3.symm.trans a1)
  have hur : u.row < u.height := by rw [a3.row, a3.height]; exact base_row S hv
  obtain ⟨c1, c2⟩ := newline_clear hur (level_clear a3 (base_clear S hv hcl))
  obtain ⟨hleg, hnext⟩ := legible_next (keep := keepC) h hg hrl g2 (entered_clip h.setting hrl hn g1) g8
  have hprint : ∀ c ∈ "TEXT=".toList ++ l, 0x20 ≤ c.toNat ∧ ¬ (0x7F ≤ c.toNat ∧ c.toNat ≤ 0x9F) ∧ 0 ≤ adv c.toNat ∧ adv c.toNat ≤ (v.run adv (bytesOf E.cfg o)).width := by
    intro c hc
    rw [a8]
    refine readable_prints hC (by have := hC.room h; omega) ?_
    rcases List.mem_append.mp hc with hc | hc
    · have : ∀ c ∈ "TEXT=".toList, 0x20 ≤ c.toNat ∧ c.toNat ≤ 0x7E := by decide +kernel
      exact ⟨hC.ascii _ (this c hc).1 (this c hc).2, (this c hc).1⟩
    · exact hleg c hc
  have hroom := hC.room h
  have hwide := hC.wide
  obtain ⟨⟨qs, hqs⟩, rows, b1, b2, b3, b4, b5, b6, b7, b8, b9⟩ := run_prints_line (adv := adv) (v := v.run adv (bytesOf E.cfg o)) (b := replyText r.text)
    (by rw [g2]; exact replyText_utf8 l) hprint a7 g6
    (by intro y hy x; rw [a5] at hy; rw [a4]; exact c1 y hy x) a6 (by rw [a8]; omega) (by intro x; rw [a4, a5]; exact c2 x)
  have hbytes : bytesOf E.cfg (o ++ [.lit (replyText r.text)]) = bytesOf E.cfg o ++ replyText r.text := by
    unfold bytesOf
    rw [List.flatMap_append, List.flatMap_cons, List.flatMap_nil, List.append_nil]
    rfl
  have hcut : v.run adv (bytesOf E.cfg (o ++ [.lit (replyText r.text)])) = (v.run adv (bytesOf E.cfg o)).run adv (replyText r.text) := by
    rw [hbytes, hrs.cut]
  have hS := drop_range S
  have hlift : Raised S v ((v.run adv (bytesOf E.cfg o)).run adv (replyText r.text)) (rows.length + (1 + S.drop)) := by
    intro k hk hs
    rw [show (rows.length : Int) + (1 + S.drop) + k = rows.length + (1 + S.drop + k) by omega, b9 _ (by omega)]
    exact g12 k hk hs
  have hlt : l = p.text := plays_entered g1
  refine ⟨l, p, rest, o ++ [.lit (replyText r.text)], g1, g2, by rw [g3, List.append_assoc], ⟨rs ++ qs, by rw [hbytes]; exact hrs.append hqs⟩,
    g4.print _, ?_, hnext, ?_, ?_, g7, g8, g9, g10, ?_⟩
  · rw [hcut]; exact g5.print _ b2 b5 b6
  · rw [hcut]; exact b3
  · rw [hcut]; exact b4
  · rw [hcut]
    refine ⟨fun hs => ?_, rows, ?_, ?_, ⟨room, g11, ?_⟩, ?_⟩
    · have hd : S.drop = 1 := by unfold Sign.drop; rw [if_pos hs]
      rw [hd, show (1 : Int) - 1 = 0 from rfl, Int.sub_zero]
      exact b7
    · rw [b6, show p.reply = ("TEXT=".toList ++ l).map Char.toNat by rw [hlt]; rfl]
      exact b1
    · rw [show 1 - S.drop + (rows.length : Int) - 1 + S.drop = rows.length by omega]
      exact b8
    · have e1 := b9 1 (by decide)
      unfold RowShows Sign.At at g11' ⊢
      rw [show 1 - S.drop + (rows.length : Int) + S.drop = rows.length + 1 by omega, e1]
      exact g11'
    · have := hT.lift hlift (Int.le_refl _) (by rw [b6, a8])
      rw [show 1 - S.drop + (rows.length : Int) + 1 + S.drop = rows.length + (1 + S.drop) + (1 - S.drop) by omega]
      exact this

/-- **Whenever a key is awaited**. -/
theorem midst_dialogue {keep : Bytes → Bool} {keepC : List Char → Bool} {v0 : Vt} (hkeep : ∀ l, keep (utf8 l) = keepC l) (hlf : E.lineFeed = none)
    {c : Container} {s : St} (ha : Midst E keep c w s) (hn : noResize s.input ≠ []) :
    ∀ {hist : List (List Char)} {n : Nat} {clip : Option (List Char)} {ks : List (List Char)} {v : Vt} {ps : List Page},
      PlainDesk { E with history := c.buffer } w { D with history := hist } t n clip ks →
      Console S { E with history := c.buffer } w { D with history := hist } t clip ks adv v →
      Legible { D with history := hist } t clip ks → (∀ k ∈ ks, D.verb k ≠ .redraw) →
      v.row < v.height → Clear v → (∀ x, x = w.termWidth ∨ .resize x ∈ w.input → rooms (x - S.columns E.cfg - 3)) → Dialogue S E.cfg adv rooms v0 v (1 - S.drop) ps → hist = heard keepC ps →
      ∃ ps' p r o hint, Opened D keepC t ps hist n clip ks ps' p r ∧ keysIn s.input = r.map utf8 ∧ s.out = w.out ++ o ∧
        ShowsPage S E.cfg adv (v.run adv (bytesOf E.cfg o)) (s.termWidth - S.columns E.cfg - 3) p hint ∧
        ((D.guessing = false ∨ ∀ k ∈ ks, D.verb k ∉ [.killRight, .killAll, .exchange, .older, .newer]) →
          hint = (p.offer { D with history := heard keepC ps' }).map Char.toNat) ∧ Dialogue S E.cfg adv rooms v0 (v.run adv (bytesOf E.cfg o)) 1 ps' := by
  induction ha with
  | @here c w s hr =>
    intro hist n clip ks v ps h hC _ hl hv _ hrooms hT hhist
    obtain ⟨p, r, h1, h2, h3⟩ := reachable_drawn h.setting hr
    obtain ⟨o, hint, h4, h5, hh⟩ := portrays_shows h hC hr h2 hn
    obtain ⟨o', h6, h7⟩ := call_during h hC hl hr hn
    obtain rfl := List.append_cancel_left (h4.symm.trans h6)
    have hl1 : Raised S v (v.run adv (bytesOf E.cfg o)) S.drop := base_raised S hv h7
    exact ⟨ps, p, r, o, hint, .here h1, h3.keys, h4, h5, fun hg => by
      rw [hh hg, hhist], by
        have := hT.lift hl1 (Int.le_refl _) (by rw [h7.width, base_width])
        rw [show S.drop + (1 - S.drop) = 1 by omega] at this
        exact this⟩
  | @next c w s r s' hrl hnil _ ih =>
    intro hist n clip ks v ps h hC hg hl hv hcl hrooms hT hhist
    obtain ⟨l, p, rest, o, g1, g2, g3, ⟨rs, hrs⟩, g4, g5, g6, g7, g8, g9, g10, g11, g12, g13⟩ :=
      call_said (keepC := keepC) h hC hg hl hlf hv hcl hrooms hT hrl hnil
    have hb : (if keep r.text then c.add r.text else c).buffer = if keepC l then c.buffer ++ [r.text] else c.buffer := by
      rw [g2, hkeep]
      split <;> rfl
    have hnew : (if keepC l then hist ++ [l] else hist) = heard keepC (p :: ps) := by
      have hlt : l = p.text := plays_entered g1
      unfold heard at hhist ⊢
      rw [List.reverse_cons, List.map_append, List.filter_append, ← hhist, hlt, List.map_cons, List.map_nil, List.filter_cons, List.filter_nil]
      split <;> simp
    obtain ⟨ps', q, r', o', hint, q1, q2, q3, q4, q5, q6⟩ := ih hn (by rw [hb]; exact g4) (by rw [hb]; exact g5) g6
      (fun k hk => hl k (g10.subset hk)) g7 g8 g9 g13 hnew
    have hcut : v.run adv (bytesOf E.cfg (o ++ o')) = (v.run adv (bytesOf E.cfg o)).run adv (bytesOf E.cfg o') := by
      unfold bytesOf at hrs ⊢
      rw [List.flatMap_append, hrs.cut]
    have q3 : s'.out = s.out ++ [.lit (replyText r.text)] ++ o' := q3
    exact ⟨ps', q, r', o ++ o', hint, .next g1 q1, q2, by rw [q3, g3, List.append_assoc], by rw [hcut]; exact q4,
      fun hf => q5 (hf.imp id fun hx k hk => hx k (g10.subset hk)), by rw [hcut]; exact q6⟩

/-! ## The end -/

/-- The command of the key that ends a call changes nothing, unless it is Ctrl-C. -/
theorem ending_idle {u v : St} {r : RLRes} {k : Bytes} {rest : List Ev} {rc : Result} (hi : u.input = .key k :: rest) (he : Ends E u r)
    (hr : r.err ≠ .ctrlC) (hc : Cmd.call E (lookupCommand E k) ({ u.emit .await with input := rest }.emit .cursorOff) = .ok (v, rc)) :
    v = { u.emit .await with input := rest }.emit .cursorOff := by
  cases he with
  | @enter k' rest' hi' hc' =>
    rw [hi] at hi'
    injection hi' with a1 a2
    injection a1 with a1
    subst a1 a2
    rw [hc'] at hc
    injection hc with hc
    exact (Prod.ext_iff.mp hc).1.symm
  | interrupt => exact absurd rfl hr
  | @eof k' rest' hi' hc' hul =>
    rw [hi] at hi'
    injection hi' with a1 a2
    injection a1 with a1
    subst a1 a2
    have hbuf : u.buf = [] := by
      rw [St.units_eq] at hul
      exact List.map_eq_nil_iff.mp (List.map_eq_nil_iff.mp hul)
    have hc0 : Cmd.call E .deleteOrAbort ({ u.emit .await with input := rest }.emit .cursorOff) =
        .ok ({ u.emit .await with input := rest }.emit .cursorOff, .abort) := by
      show cmdDeleteOrAbort E _ = _
      unfold cmdDeleteOrAbort
      rw [if_neg]
      · rfl
      · simp [St.len, St.emit, hbuf]
    rw [hc', hc0] at hc
    injection hc with hc
    exact (Prod.ext_iff.mp hc).1.symm
  | error hi' => rw [hi] at hi'; cases hi'
  | exhausted hi' => rw [hi] at hi'; cases hi'

/-- The repainting without a prediction at the end of a call. -/
theorem finish_shows {lit : Bytes → Row → Row} (hS : Sane E lit) {v s1 : St} (ha : v.aligned E) (hV : InView E v)
    (h1 : repaintNoSuffix E { v.emit .cursorOn with suffix := none } = .ok s1) :
    s1.suffix = none ∧ s1.topColumn = v.topColumn ∧ s1.mojis = v.mojis ∧ s1.termWidth = v.termWidth ∧ s1.cursor = v.cursor ∧
      ∃ t, s1.out = v.out ++ t ∧ ∀ row, Shows E s1 (Row.run E.cfg lit row t) := by
  have hV' : InView E ({ v.emit .cursorOn with suffix := none } : St) := ⟨hV.low, hV.mid, hV.high, hV.fits⟩
  obtain ⟨-, t, e, hl⟩ := repaintNoSuffix_paints (lit := lit) (s1 := { v.emit .cursorOn with suffix := none }) hS ha hV' h1
  obtain ⟨hm, b, o, h3⟩ := repaintNoSuffix_mojis (s1 := { v.emit .cursorOn with suffix := none }) ha h1
  refine ⟨by rw [h3], by rw [h3]; rfl, hm, by rw [h3]; rfl, by rw [h3]; rfl, [.cursorOn] ++ t, ?_, fun row => ?_⟩
  · rw [e]; simp [St.emit]
  · rw [run_append]
    exact (hl _).1

/-- The row of a call that ends with a key shows the line as it was before the key, without a prediction; after Ctrl-C it shows an
empty line if there was a prediction. -/
theorem abandoned_shows {lit : Bytes → Row → Row} (hS : Sane E lit) (hb : BuiltinKeys E) (hw : Steady E w) {s : St} {r : RLRes}
    (h : readLine E w = .ok (s, r)) (hr : ∀ e, r.err ≠ .tty e) :
    ∃ (y u : St) (k : Bytes) (rest : List Ev), Reachable E w u ∧ u.input = .key k :: rest ∧ Ends E u r ∧ y.suffix = none ∧
      y.topColumn = u.topColumn ∧ y.termWidth = u.termWidth ∧
      (y.mojis = u.mojis ∧ y.cursor = u.cursor ∧ (r.err = .ctrlC → u.suffix = none) ∨
        r.err = .ctrlC ∧ u.suffix ≠ none ∧ y.mojis = [] ∧ y.cursor = 0) ∧
      ∃ t, s.out = w.out ++ t ++ farewell E.lineFeed r.err ∧ ∀ row, Shows E y (Row.run E.cfg lit row t) := by
  obtain ⟨u, k, rest, hu, hi, he, ⟨t0, e0, hr0⟩, v, rc, hc, s1, h1, rfl⟩ := ending_row hS hb hw h hr
  have hV := (hr0 ⟨0, fun _ => none, 0⟩).inView hS
  by_cases hcc : r.err = .ctrlC
  · obtain ⟨k', rest', hi', hc'⟩ : ∃ k rest, u.input = .key k :: rest ∧ lookupCommand E k = .interrupt := by
      cases he with
      | interrupt hi hc => exact ⟨_, _, hi, hc⟩
      | _ => cases hcc
    rw [hi] at hi'
    injection hi' with a1 a2
    injection a1 with a1
    subst a1 a2
    rw [hc'] at hc
    injection hc with hc
    obtain ⟨hv, -⟩ := Prod.ext_iff.mp hc
    have hv : ({ { u.emit .await with input := rest }.emit .cursorOff with buf := [], cursor := 0, viewStart := 0, undoes := [] } : St) = v := hv
    have hvs : v.suffix = u.suffix := by rw [← hv]; rfl
    have hout : v.out = w.out ++ (t0 ++ [.await, .cursorOff]) := by rw [← hv]; simp [St.emit, e0]
    cases hs : u.suffix with
    | none =>
      rw [hvs, hs] at h1
      injection h1 with h1
      subst h1
      refine ⟨u, u, k, rest, hu, hi, he, hs, rfl, rfl, .inl ⟨rfl, rfl, fun _ => hs⟩, t0 ++ [.await, .cursorOff] ++ [.cursorOn], ?_, fun row => ?_⟩
      · show v.out ++ [.cursorOn] ++ _ = _
        rw [hout]; simp
      · rw [run_append, run_append]
        exact (hr0 row).congr
    | some y =>
      rw [hvs, hs] at h1
      have hvw : 0 < u.viewWidth := by
        have h2 := (hS.wide (u.between u.viewStart u.cursor)).columns
        have := hV.fits
        omega
      have hvm : v.mojis = [] := by rw [← hv]; rfl
      have ha : v.aligned E := St.noTabs_aligned (by rw [hvm]; simp)
      have hVv : InView E v := by
        rw [← hv]
        refine ⟨Int.le_refl _, Int.le_refl _, Int.le_refl _, ?_⟩
        exact hvw
      obtain ⟨b1, b2, b3, b4, b5, t, e, hl⟩ := finish_shows (lit := lit) hS ha hVv h1
      refine ⟨s1, u, k, rest, hu, hi, he, b1, by rw [b2, ← hv]; rfl, by rw [b4, ← hv]; rfl,
        .inr ⟨hcc, by rw [hs]; simp, by rw [b3, hvm], by rw [b5, ← hv]⟩, t0 ++ [.await, .cursorOff] ++ t, ?_, fun row => ?_⟩
      · show s1.out ++ _ = _
        rw [e, hout]; simp
      · rw [run_append]
        exact hl _
  · obtain rfl := ending_idle hi he hcc hc
    have ha := reachable_aligned hb hu
    cases hs : u.suffix with
    | none =>
      have h1 : (Except.ok (({ u.emit .await with input := rest }.emit .cursorOff).emit .cursorOn) : M St) = .ok s1 := by
        have hs' : ({ u.emit .await with input := rest }.emit .cursorOff : St).suffix = none := hs
        rw [hs'] at h1; exact h1
      injection h1 with h1
      subst h1
      refine ⟨u, u, k, rest, hu, hi, he, hs, rfl, rfl, .inl ⟨rfl, rfl, fun _ => hs⟩, t0 ++ [.await, .cursorOff] ++ [.cursorOn], ?_, fun row => ?_⟩
      · simp [St.emit, e0]
      · rw [run_append, run_append]
        exact (hr0 row).congr
    | some y =>
      have h1 : repaintNoSuffix E { ({ u.emit .await with input := rest }.emit .cursorOff).emit .cursorOn with suffix := none } = .ok s1 := by
        have hs' : ({ u.emit .await with input := rest }.emit .cursorOff : St).suffix = some y := hs
        rw [hs'] at h1; exact h1
      obtain ⟨b1, b2, b3, b4, b5, t, e, hl⟩ := finish_shows (lit := lit) (v := { u.emit .await with input := rest }.emit .cursorOff) hS ha
        ⟨hV.low, hV.mid, hV.high, hV.fits⟩ h1
      refine ⟨s1, u, k, rest, hu, hi, he, b1, b2, b4, .inl ⟨b3, b5, fun hx => absurd hx hcc⟩, t0 ++ [.await, .cursorOff] ++ t, ?_, fun row => ?_⟩
      · show s1.out ++ _ = _
        rw [e]; simp [St.emit, e0]
      · rw [run_append]
        exact hl _

/-- The page that is open when the call ends. -/
theorem left_page (h : Setting E w D t n clip ks) {u : St} (hu : Reachable E w u) {r : RLRes} (he : Ends E u r) (hr : ∀ e, r.err ≠ .tty e) :
    ∃ a p rest, oneLine D t n clip ks = (a, p, rest) ∧ a.answer = some r ∧ Portrays E.logic u.ed p := by
  obtain ⟨p, rs, ht, hd, hrd⟩ := reachable_drawn h hu
  have key : ∀ {kb rest}, u.input = .key kb :: rest → ∃ k r', rs = k :: r' ∧ kb = utf8 k ∧ Means (lookupCommand E kb) (D.verb k) := by
    intro kb rest hi
    obtain ⟨k, r', h1, h2, h3, -⟩ := drawn_turn h hu ht hd hrd hi
    exact ⟨k, r', h1, h3, h3 ▸ h.means k h2⟩
  have htx : u.text = utf8 p.text := by rw [← hd.text]; exact St.text_eq u
  cases he with
  | @enter kb rest hi hc =>
    obtain ⟨k, r', rfl, rfl, hm⟩ := key hi
    have hv : D.verb k = .enter := by rw [hc] at hm; generalize D.verb k = x at hm; cases hm; rfl
    have htn : turn D p k r' = .inr (.entered p.text) := by unfold turn; rw [hv]
    refine ⟨_, p, r', ht.closes htn (Nat.le_refl _), ?_, hd⟩
    show some (⟨utf8 p.text, .nil⟩ : RLRes) = _
    rw [← htx]
    rfl
  | @interrupt kb rest hi hc =>
    obtain ⟨k, r', rfl, rfl, hm⟩ := key hi
    have hv : D.verb k = .interrupt := by rw [hc] at hm; generalize D.verb k = x at hm; cases hm; rfl
    have htn : turn D p k r' = .inr .interrupted := by unfold turn; rw [hv]
    exact ⟨_, p, r', ht.closes htn (Nat.le_refl _), rfl, hd⟩
  | @eof kb rest hi hc hul =>
    obtain ⟨k, r', rfl, rfl, hm⟩ := key hi
    have hv : D.verb k = .deleteOrClose := by rw [hc] at hm; generalize D.verb k = x at hm; cases hm; rfl
    have hnil : p.text = [] := by
      have h0 : u.text = [] := by
        show u.units.flatten = []
        rw [hul]
        rfl
      rw [htx] at h0
      by_cases hp : p.text = []
      · exact hp
      · exact absurd h0 (utf8_ne_nil hp)
    have htn : turn D p k r' = .inr .closed := by unfold turn; rw [hv]; simp [hnil]
    exact ⟨_, p, r', ht.closes htn (Nat.le_refl _), rfl, hd⟩
  | error _ => exact absurd rfl (hr _)
  | exhausted _ => exact absurd rfl (hr _)

theorem folded_single {W : Int} {text : List Rune} {rows : List (List Rune)} (h : Folded adv W text rows) (hn : ∀ r ∈ text, 0 ≤ adv r)
    (hw : printedColumns adv text ≤ W) : rows = [text] := by
  cases h with
  | last => rfl
  | @fold row r text rows h1 h2 _ =>
    rw [printedColumns_append] at hw
    have hcol : ∀ {a : List Rune}, (∀ r ∈ a, 0 ≤ adv r) → 0 ≤ printedColumns adv a := by
      intro a ha
      induction a with
      | nil => exact Int.le_refl 0
      | cons r a ih =>
        have := ih fun r hr => ha r (by simp [hr])
        have := ha r (by simp)
        show 0 ≤ adv r + printedColumns adv a
        omega
    have : 0 ≤ printedColumns adv text := hcol fun r hr => hn r (by simp [hr])
    have hw : printedColumns adv row + (adv r + printedColumns adv text) ≤ W := hw
    omega

theorem printedColumns_ascii (ha : ∀ r, 0x20 ≤ r → r ≤ 0x7E → adv r = 1) {text : List Rune} (h : ∀ r ∈ text, 0x20 ≤ r ∧ r ≤ 0x7E) :
    printedColumns adv text = text.length := by
  induction text with
  | nil => rfl
  | cons r text ih =>
    show adv r + printedColumns adv text = _
    rw [ih fun r hr => h r (by simp [hr]), ha r (h r (by simp)).1 (h r (by simp)).2, List.length_cons]
    omega

/-- **The end of the program** by a key: the row of the line that was given up, and what is printed. -/
theorem call_abandoned {v0 : Vt} (h : PlainDesk E w D t n clip ks) (hC : Console S E w D t clip ks adv v) (hwd : 7 ≤ v.width)
    (hl : ∀ k ∈ ks, D.verb k ≠ .redraw) (hlf : E.lineFeed = none) (hv : v.row < v.height) (hcl : Clear v)
    (hrooms : ∀ x, x = w.termWidth ∨ .resize x ∈ w.input → rooms (x - S.columns E.cfg - 3)) {ps : List Page} (hT : Dialogue S E.cfg adv rooms v0 v (1 - S.drop) ps)
    {s : St} {r : RLRes} (hrl : readLine E w = .ok (s, r)) (he : ∀ e, r.err ≠ .tty e) (hn : r.err ≠ .nil) :
    ∃ a p rest o, oneLine D t n clip ks = (a, p, rest) ∧ (a = .interrupted ∧ r.err = .ctrlC ∨ a = .closed ∧ r.err = .eof) ∧
      s.out ++ [.lit (replyErr r.err)] = w.out ++ o ∧
      (v.run adv (bytesOf E.cfg o)).mode = .ground ∧ (v.run adv (bytesOf E.cfg o)).col = 0 ∧
      (∀ x, (v.run adv (bytesOf E.cfg o)).cells (v.run adv (bytesOf E.cfg o)).row x = none) ∧
      Above adv (v.run adv (bytesOf E.cfg o)) 1 [farewellLine a] ∧
      (∃ room l m, rooms room ∧ Remains D ks a p l m ∧
        RowShows S E.cfg adv (v.run adv (bytesOf E.cfg o)) ((v.run adv (bytesOf E.cfg o)).row - 2) room (l.map Char.toNat) m) ∧
      Dialogue S E.cfg adv rooms v0 (v.run adv (bytesOf E.cfg o)) 3 ps := by
  have hb := h.setting.builtin
  obtain ⟨ts, u, e, ⟨rs, hrs⟩, a3, a4, a5, a6, a7, a8, a9, a10⟩ := call_closes h hC hl hlf hrl he
  obtain ⟨y, z, k, rest0, hz, hi, hends, hsuf, g1, g3, g5, t2, e3, hsh⟩ :=
    abandoned_shows (console_sane hC) hb (ordinary_steady hb (console_ordinary h hC)) hrl he
  obtain rfl : .lit (signBytes E w.promptN) :: ts = t2 := by
    have := List.append_cancel_right (e.symm.trans e3)
    exact List.append_cancel_left this
  have hrow := a10 y z hz hsuf g1 (by
    rcases g5 with ⟨g, -⟩ | ⟨-, -, g, -⟩
    · rw [g]; exact fun _ h => h
    · rw [g]; intro m hm; cases hm) hsh
  obtain ⟨a, p, rest, h1, h2, hd⟩ := left_page h.setting hz hends he
  have htx : z.text = utf8 p.text := by rw [← hd.text]; exact St.text_eq z
  have hcur : z.cursor = (p.left.length : Int) := hd.cursor
  have hm : ∀ x : St, x.text = (x.mojis.map Moji.write).flatten := fun x => by rw [St.text_units]; simp [St.units, St.mojis, Function.comp_def]
  have hae : a = .interrupted ∧ r.err = .ctrlC ∨ a = .closed ∧ r.err = .eof := by
    cases a with
    | entered l => cases h2; exact absurd rfl hn
    | interrupted => cases h2; exact .inl ⟨rfl, rfl⟩
    | closed => cases h2; exact .inr ⟨rfl, rfl⟩
    | starved => cases h2; exact absurd rfl (he _)
    | crashed => cases h2
  have hguess : z.suffix ≠ none → D.guessing = true := by
    intro hx
    rw [← h.guessing]
    refine decide_eq_true fun hp => hx (C20_off hb hp hz).1
  have hfresh : D.guessing = true → (∀ k ∈ ks, D.verb k ∉ [.killRight, .killAll, .exchange, .older, .newer]) → z.suffix = none → p.text = [] := by
    intro hg hf hx
    have hp : E.predictColor.1 ≠ [] := by
      have := h.guessing
      rw [hg] at this
      exact of_decide_eq_true this
    have := (C20_fresh_partial hb hp (fun q hq => by
      have : q ∈ keysIn w.input := mem_keysIn.mp hq
      rw [h.keys] at this
      obtain ⟨k, hk, rfl⟩ := List.mem_map.mp this
      exact stales_means (h.means k hk) (hf k hk)) hz).1
    rw [hx] at this
    by_cases hz0 : z.units = []
    · have h0 : z.text = [] := by rw [St.text_units, hz0]; rfl
      rw [htx] at h0
      exact Classical.byContradiction fun hne => utf8_ne_nil hne h0
    · rw [if_neg hz0] at this; cases this
  obtain ⟨l, m, hrem, hrow⟩ : ∃ l m, Remains D ks a p l m ∧ RowShows S E.cfg adv u u.row (z.termWidth - S.columns E.cfg - 3) (l.map Char.toNat) m := by
    rw [g3] at hrow
    rcases g5 with ⟨g5, g6, g7⟩ | ⟨g5, g6, g7, g8⟩
    · rw [hm, g5, ← hm, htx, runesOf_utf8, g6, hcur] at hrow
      refine ⟨p.text, p.left.length, ⟨.inl ⟨rfl, rfl⟩, fun hf => ?_⟩, hrow⟩
      split
      · rename_i hx
        rcases hae with ⟨-, h3⟩ | ⟨h3, -⟩
        · rcases hf with hf | hf
          · rw [hf] at hx; cases hx.1
          · exact hfresh hx.1 hf (g7 h3)
        · rw [h3] at hx; cases hx.2
      · rfl
    · rw [hm, g7, g8] at hrow
      have hai : a = .interrupted := by
        rcases hae with ⟨h3, -⟩ | ⟨-, h3⟩
        · exact h3
        · rw [h3] at g5; cases g5
      refine ⟨[], 0, ⟨.inr ⟨hguess g6, hai, rfl, rfl⟩, fun _ => ?_⟩, ?_⟩
      · rw [if_pos ⟨hguess g6, hai⟩]
      · have e0 : runesOf (([] : List Moji).map Moji.write).flatten = ([] : List Char).map Char.toNat := runesOf_nil
        rw [e0] at hrow
        exact hrow
  have hroomz : rooms (z.termWidth - S.columns E.cfg - 3) := hrooms _ (reachable_width (BuiltinKeys.builtin hb) hz)
  generalize ho : (.lit (signBytes E w.promptN) :: ts ++ farewell E.lineFeed r.err : List Tok) = o at hrs a4 a5 a6 a7 a8 a9
  have e : s.out = w.out ++ o := by rw [e, ← ho, List.append_assoc]
  have hur : u.row < u.height := by rw [a3.row, a3.height]; exact base_row S hv
  obtain ⟨c1, c2⟩ := newline_clear hur (level_clear a3 (base_clear S hv hcl))
  have hl1 : Raised S v u S.drop := base_raised S hv a3
  have hl2 : Lifted u (v.run adv (bytesOf E.cfg o)) 1 := by
    intro k hk
    rw [a4, a5]
    exact newline_lifted hur k hk
  have hS := drop_range S
  have hl3 : Raised S v _ (1 + S.drop) := hl1.trans hl2.raised hS.1
  obtain ⟨x, hx, hx1, hx2, hx3⟩ : ∃ x : List Char, replyErr r.err = utf8 (x ++ ['\n']) ∧ x.map Char.toNat = farewellLine a ∧
      (∀ c ∈ x, 0x20 ≤ c.toNat ∧ c.toNat ≤ 0x7E) ∧ x.length ≤ 7 := by
    rcases hae with ⟨rfl, h3⟩ | ⟨rfl, h3⟩ <;> rw [h3]
    · exact ⟨"ERR=^C".toList, by decide +kernel, by decide +kernel, by decide +kernel, by decide +kernel⟩
    · exact ⟨"ERR=EOF".toList, by decide +kernel, by decide +kernel, by decide +kernel, by decide +kernel⟩
  have hroom := hC.room h
  have hwide := hC.wide
  obtain ⟨-, rows, b1, b2, b3, b4, b5, b6, b7, b8, b9⟩ := run_prints_line (adv := adv) (v := v.run adv (bytesOf E.cfg o)) hx
    (by intro c hc
        rw [a8]
        exact readable_prints hC (by have := hC.room h; omega) ⟨hC.ascii _ (hx2 c hc).1 (hx2 c hc).2, (hx2 c hc).1⟩)
    a7 (by rw [a5, a9]; exact newline_row u hur) (by intro y hy x; rw [a5] at hy; rw [a4]; exact c1 y hy x) a6 (by rw [a8]; omega)
    (by intro x; rw [a4, a5]; exact c2 x)
  have hx2' : ∀ r ∈ x.map Char.toNat, 0x20 ≤ r ∧ r ≤ 0x7E := by simpa using hx2
  obtain rfl : rows = [farewellLine a] := by
    rw [← hx1]
    refine folded_single b1 (fun r hr => by rw [hC.agrees.ascii r (hx2' r hr).1 (hx2' r hr).2]; decide) ?_
    rw [printedColumns_ascii hC.agrees.ascii hx2', a8, List.length_map]
    omega
  have hbytes : bytesOf E.cfg (o ++ [.lit (replyErr r.err)]) = bytesOf E.cfg o ++ replyErr r.err := by
    unfold bytesOf
    rw [List.flatMap_append, List.flatMap_cons, List.flatMap_nil, List.append_nil]
    rfl
  have hcut : v.run adv (bytesOf E.cfg (o ++ [.lit (replyErr r.err)])) = (v.run adv (bytesOf E.cfg o)).run adv (replyErr r.err) := by
    rw [hbytes, hrs.cut]
  have b9 : ∀ k, 1 ≤ k → ((v.run adv (bytesOf E.cfg o)).run adv (replyErr r.err)).cells (((v.run adv (bytesOf E.cfg o)).run adv (replyErr r.err)).row - (1 + k)) =
      (v.run adv (bytesOf E.cfg o)).cells ((v.run adv (bytesOf E.cfg o)).row - k) := b9
  refine ⟨a, p, rest, o ++ [.lit (replyErr r.err)], h1, hae, by rw [e, List.append_assoc], by rw [hcut]; exact b2, by rw [hcut]; exact b5,
    by rw [hcut]; exact b7, by rw [hcut]; exact b8, ?_, ?_⟩
  · refine ⟨_, l, m, hroomz, hrem, ?_⟩
    rw [hcut]
    have := hl2 0 (by decide)
    rw [show (1 : Int) + 0 = 1 from rfl, show u.row - 0 = u.row by omega] at this
    unfold RowShows Sign.At at hrow ⊢
    rw [show (2 : Int) = 1 + 1 from rfl, b9 1 (by decide), this]
    exact hrow
  · rw [hcut]
    have hlift : Raised S v ((v.run adv (bytesOf E.cfg o)).run adv (replyErr r.err)) (2 + S.drop) := by
      intro k hk hs
      rw [show 2 + S.drop + k = 1 + (1 + S.drop + k) by omega, b9 _ (by omega)]
      exact hl3 k hk hs
    have := hT.lift hlift (Int.le_refl _) (by rw [b6, a8])
    rw [show 2 + S.drop + (1 - S.drop) = 3 by omega] at this
    exact this

/-- **The whole loop**. -/
theorem replyLines_dialogue {keep : Bytes → Bool} {keepC : List Char → Bool} {v0 : Vt} (hkeep : ∀ l, keep (utf8 l) = keepC l) (hlf : E.lineFeed = none)
    (m : Nat) : ∀ {w : World} {c : Container} {hist : List (List Char)} {n : Nat} {clip : Option (List Char)} {ks : List (List Char)}
      {f : Nat} {v : Vt} {ps : List Page} {x : Container × RLErr × World},
      PlainDesk { E with history := c.buffer } w { D with history := hist } t n clip ks →
      Console S { E with history := c.buffer } w { D with history := hist } t clip ks adv v → 7 ≤ v.width →
      Legible { D with history := hist } t clip ks → (∀ k ∈ ks, D.verb k ≠ .redraw) →
      v.row < v.height → Clear v → (∀ x, x = w.termWidth ∨ .resize x ∈ w.input → rooms (x - S.columns E.cfg - 3)) → Dialogue S E.cfg adv rooms v0 v (1 - S.drop) ps →
      ks.length < f → replyLines E keep m c w = .ok x → (∀ e, x.2.1 ≠ .tty e) →
      ∃ o a p, parting D keepC t f hist n clip ks = (a, p) ∧ (a = .interrupted ∧ x.2.1 = .ctrlC ∨ a = .closed ∧ x.2.1 = .eof) ∧
        x.2.2.out = w.out ++ o ∧ (v.run adv (bytesOf E.cfg o)).mode = .ground ∧ (v.run adv (bytesOf E.cfg o)).col = 0 ∧
        (∀ x, (v.run adv (bytesOf E.cfg o)).cells (v.run adv (bytesOf E.cfg o)).row x = none) ∧
        Above adv (v.run adv (bytesOf E.cfg o)) 1 [farewellLine a] ∧
        (∃ room l m, rooms room ∧ Remains D ks a p l m ∧
          RowShows S E.cfg adv (v.run adv (bytesOf E.cfg o)) ((v.run adv (bytesOf E.cfg o)).row - 2) room (l.map Char.toNat) m) ∧
        Dialogue S E.cfg adv rooms v0 (v.run adv (bytesOf E.cfg o)) 3 (leaves D keepC t f ps hist n clip ks) := by
  induction m with
  | zero => intro w c hist n clip ks f v ps x _ _ _ _ _ _ _ _ _ _ hx; cases hx
  | succ m ih =>
    intro w c hist n clip ks f v ps x h hC hwd hg hl hv hcl hrooms hT hf hx he
    obtain ⟨f, rfl⟩ : ∃ x, f = x + 1 := ⟨f - 1, by omega⟩
    rw [replyLines] at hx
    obtain ⟨⟨s, r⟩, hrl, hx⟩ := bind_ok.mp hx
    have hx : (match r.err with
          | .nil => replyLines E keep m (if keep r.text then c.add r.text else c) (s.world.print (replyText r.text))
          | err => pure (c, err, s.world.print (replyErr err))) = .ok x := hx
    by_cases hn : r.err = .nil
    · rw [hn] at hx
      have hx : replyLines E keep m (if keep r.text then c.add r.text else c) (s.world.print (replyText r.text)) = .ok x := hx
      obtain ⟨l, p, rest, o, g1, g2, g3, ⟨rs, hrs⟩, g4, g5, g6, g7, g8, g9, g10, g11, g12, g13⟩ :=
        call_said (keepC := keepC) h hC hg hl hlf hv hcl hrooms hT hrl hn
      have hb : (if keep r.text then c.add r.text else c).buffer = if keepC l then c.buffer ++ [r.text] else c.buffer := by
        rw [g2, hkeep]
        split <;> rfl
      obtain ⟨o', a, q, q1, q2, q3, q4, q5, q6, q7, q8, q9⟩ := ih (f := f) (by rw [hb]; exact g4) (by rw [hb]; exact g5) (by show 7 ≤ (v.feed adv _).width; rw [feed_width]; exact hwd) g6
        (fun k hk => hl k (g10.subset hk)) g7 g8 g9 g13 (by omega) hx he
      have hcut : v.run adv (bytesOf E.cfg (o ++ o')) = (v.run adv (bytesOf E.cfg o)).run adv (bytesOf E.cfg o') := by
        unfold bytesOf at hrs ⊢
        rw [List.flatMap_append, hrs.cut]
      have q3 : x.2.2.out = s.out ++ [.lit (replyText r.text)] ++ o' := q3
      rw [leaves, parting, g1]
      exact ⟨o ++ o', a, q, q1, q2, by rw [q3, g3, List.append_assoc], by rw [hcut]; exact q4, by rw [hcut]; exact q5, by rw [hcut]; exact q6,
        by rw [hcut]; exact q7,
        by
          obtain ⟨room, l', m', j1, ⟨j2, j3⟩, j4⟩ := q8
          rw [hcut]
          exact ⟨room, l', m', j1, ⟨j2, fun hf => j3 (hf.imp id fun hx k hk => hx k (g10.subset hk))⟩, j4⟩, by rw [hcut]; exact q9⟩
    · have hx : (c, r.err, s.world.print (replyErr r.err)) = x := by
        have : ∀ e : RLErr, e ≠ .nil → (match e with
          | .nil => replyLines E keep m (if keep r.text then c.add r.text else c) (s.world.print (replyText r.text))
          | err => pure (c, err, s.world.print (replyErr err))) = Except.ok x → (c, e, s.world.print (replyErr e)) = x := by
          intro e h1 h2
          cases e with
          | nil => exact absurd rfl h1
          | _ => injection h2
        exact this _ hn hx
      subst hx
      obtain ⟨a, p, rest, o, g1, g2, g3, g4, g5, g6, g7, g8, g9⟩ := call_abandoned h hC hwd hl hlf hv hcl hrooms hT hrl he hn
      have hlv : leaves D keepC t (f + 1) ps hist n clip ks = ps ∧ parting D keepC t (f + 1) hist n clip ks = (a, p) := by
        rw [leaves, parting, g1]
        rcases g2 with ⟨rfl, -⟩ | ⟨rfl, -⟩ <;> exact ⟨rfl, rfl⟩
      rw [hlv.1]
      exact ⟨o, a, p, hlv.2, g2, g3, g4, g5, g6, g7, g8, g9⟩

end Readline
