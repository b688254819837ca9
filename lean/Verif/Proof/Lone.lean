import Verif.Spec.Lone
import Verif.Model.Single
import Verif.Proof.Dialogue
/-!
# One line and what is printed after it
-/
namespace Readline
open Spec

variable {E : Env} {w : World} {D : Desk} {t : List Char} {n : Nat} {clip : Option (List Char)} {ks : List (List Char)}
  {adv : Rune → Int} {v : Vt} {rooms : Int → Prop} {S : Sign}

/-- The row of a line that was given up when nothing is foreseen. -/
theorem call_left (h : PlainDesk E w D t n clip ks) (hC : Console S E w D t clip ks adv v) (hl : ∀ k ∈ ks, D.verb k ≠ .redraw)
    (hlf : E.lineFeed = none) (hgu : D.guessing = false) {s : St} {r : RLRes} (hrl : readLine E w = .ok (s, r)) (he : ∀ e, r.err ≠ .tty e)
    (hn : r.err ≠ .nil) :
    ∃ a p rest o u room, oneLine D t n clip ks = (a, p, rest) ∧ a.answer = some r ∧ s.out = w.out ++ o ∧ (∃ rs, Reads (bytesOf E.cfg o) rs) ∧
      Level (S.base v) u ∧ (v.run adv (bytesOf E.cfg o)).cells = u.newline.cells ∧
      (v.run adv (bytesOf E.cfg o)).row = u.newline.row ∧ (v.run adv (bytesOf E.cfg o)).col = 0 ∧
      (v.run adv (bytesOf E.cfg o)).mode = .ground ∧ (v.run adv (bytesOf E.cfg o)).width = v.width ∧
      (v.run adv (bytesOf E.cfg o)).height = u.newline.height ∧ (room = w.termWidth ∨ .resize room ∈ w.input) ∧
      RowShows S E.cfg adv u u.row (room - S.columns E.cfg - 3) (p.text.map Char.toNat) p.left.length := by
  have hb := h.setting.builtin
  obtain ⟨ts, u, e, ⟨rs, hrs⟩, a3, a4, a5, a6, a7, a8, a9, a10⟩ := call_closes h hC hl hlf hrl he
  obtain ⟨y, z, k, rest0, hz, hi, hends, hsuf, g1, g3, g5, t2, e3, hsh⟩ :=
    abandoned_shows (console_sane hC) hb (ordinary_steady hb (console_ordinary h hC)) hrl he
  obtain rfl : .lit (signBytes E w.promptN) :: ts = t2 := by
    have := List.append_cancel_right (e.symm.trans e3)
    exact List.append_cancel_left this
  have hrow := a10 y z hz hsuf g1 (by
    rcases g5 with ⟨g, -⟩ | ⟨-, -, g, -⟩
    · rw [g]; exact fun _ h => h
    · rw [g]; intro m hm; cases hm) hsh
  obtain ⟨a, p, rest, h1, h2, hd⟩ := left_page h.setting hz hends he
  have htx : z.text = utf8 p.text := by rw [← hd.text]; exact St.text_eq z
  have hcur : z.cursor = (p.left.length : Int) := hd.cursor
  have hm : ∀ x : St, x.text = (x.mojis.map Moji.write).flatten := fun x => by rw [St.text_units]; simp [St.units, St.mojis, Function.comp_def]
  have hguess : z.suffix = none := by
    have hp : E.predictColor.1 = [] := by
      have := h.guessing
      rw [hgu] at this
      exact Classical.byContradiction fun hx => (of_decide_eq_false this) hx
    exact (C20_off hb hp hz).1
  refine ⟨a, p, rest, _, u, z.termWidth, h1, h2, by rw [e, List.append_assoc], ⟨rs, hrs⟩, a3, a4, a5, a6, a7, a8, a9, reachable_width (BuiltinKeys.builtin hb) hz, ?_⟩
  rw [g3] at hrow
  rcases g5 with ⟨g5, g6, g7⟩ | ⟨g5, g6, g7, g8⟩
  · rw [hm, g5, ← hm, htx, runesOf_utf8, g6, hcur] at hrow
    exact hrow
  · exact absurd hguess g6

/-- Several lines are printed. -/
theorem run_prints_lines {xs : List (List Char)} : ∀ {v : Vt},
    (∀ x ∈ xs, ∀ c ∈ x, 0x20 ≤ c.toNat ∧ ¬ (0x7F ≤ c.toNat ∧ c.toNat ≤ 0x9F) ∧ 0 ≤ adv c.toNat ∧ adv c.toNat ≤ v.width) →
    AtRow v → 0 ≤ v.width → (∀ x, v.cells v.row x = none) →
    ∃ rows, FoldedAll adv v.width xs rows ∧ AtRow (v.run adv (xs.map fun x => utf8 (x ++ ['\n'])).flatten) ∧
      (∀ x, (v.run adv (xs.map fun x => utf8 (x ++ ['\n'])).flatten).cells (v.run adv (xs.map fun x => utf8 (x ++ ['\n'])).flatten).row x = none) ∧
      Above adv (v.run adv (xs.map fun x => utf8 (x ++ ['\n'])).flatten) rows.length rows ∧
      ∀ k, 1 ≤ k → (v.run adv (xs.map fun x => utf8 (x ++ ['\n'])).flatten).cells
        ((v.run adv (xs.map fun x => utf8 (x ++ ['\n'])).flatten).row - (rows.length + k)) = v.cells (v.row - k) := by
  induction xs with
  | nil =>
    intro v _ hv _ hr
    have e : v.run adv (([] : List (List Char)).map fun x => utf8 (x ++ ['\n'])).flatten = v := by
      show v.run adv [] = v
      unfold Vt.run
      rw [runesOf_nil]
      rfl
    rw [e]
    exact ⟨[], .nil, hv, hr, trivial, fun k hk => by rw [show v.row - ((([] : List (List Rune)).length : Int) + k) = v.row - k by simp]⟩
  | cons x xs ih =>
    intro v hx hv hw hr
    obtain ⟨⟨rs, hrs⟩, rows, b1, b2, b3, b4, b5, b6, b7, b8, b9⟩ := run_prints_line (adv := adv) (v := v) (x := x) rfl
      (hx x (by simp)) hv.ground hv.inside hv.clear hv.col hw hr
    have e : v.run adv ((x :: xs).map fun x => utf8 (x ++ ['\n'])).flatten =
        (v.run adv (utf8 (x ++ ['\n']))).run adv (xs.map fun x => utf8 (x ++ ['\n'])).flatten := by
      rw [List.map_cons, List.flatten_cons, hrs.cut]
    obtain ⟨rows', c1, c2, c3, c4, c5⟩ := ih (v := v.run adv (utf8 (x ++ ['\n']))) (fun y hy c hc => by rw [b6]; exact hx y (by simp [hy]) c hc)
      ⟨b2, b5, b3, b4⟩ (by rw [b6]; exact hw) b7
    rw [b6] at c1
    rw [e]
    refine ⟨rows ++ rows', .cons b1 c1, c2, c3, ?_, fun k hk => ?_⟩
    · rw [List.length_append]
      have key : ∀ (rows : List (List Rune)) (d : Int), 1 ≤ d - rows.length + 1 → Above adv (v.run adv (utf8 (x ++ ['\n']))) d rows →
          Above adv ((v.run adv (utf8 (x ++ ['\n']))).run adv (xs.map fun x => utf8 (x ++ ['\n'])).flatten) (d + rows'.length)
            (rows ++ rows') ∨ d ≠ rows.length := by
        intro rows
        induction rows with
        | nil =>
          intro d hd _
          by_cases hd0 : d = 0
          · subst hd0; rw [Int.zero_add]; exact .inl c4
          · exact .inr (by simpa using hd0)
        | cons row rows ihr =>
          intro d hd hab
          rw [List.length_cons] at hd ⊢
          by_cases hd0 : d = ((rows.length + 1 : Nat) : Int)
          · left
            refine ⟨fun y => ?_, ?_⟩
            · rw [show d + (rows'.length : Int) = rows'.length + d by omega, c5 d (by omega)]
              exact hab.1 y
            · rcases ihr (d - 1) (by omega) hab.2 with h1 | h1
              · rw [show d + (rows'.length : Int) - 1 = d - 1 + rows'.length by omega]; exact h1
              · omega
          · exact .inr hd0
      rcases key rows rows.length (by omega) b8 with h1 | h1
      · rw [show ((rows.length + rows'.length : Nat) : Int) = rows.length + rows'.length by omega]; exact h1
      · exact absurd rfl h1
    · rw [List.length_append, show ((rows.length + rows'.length : Nat) : Int) + k = rows'.length + (rows.length + k) by omega,
        c5 (rows.length + k) (by omega), b9 k hk]

/-- **One line**, and then what is printed. -/
theorem lone_rows (h : PlainDesk E w D t n clip ks) (hC : Console S E w D t clip ks adv v) (hl : ∀ k ∈ ks, D.verb k ≠ .redraw)
    (hlf : E.lineFeed = none) (hgu : D.guessing = false) (hv : v.row < v.height) (hcl : Clear v)
    (hrooms : ∀ x, x = w.termWidth ∨ .resize x ∈ w.input → rooms (x - S.columns E.cfg - 3))
    {s : St} {r : RLRes} (hrl : readLine E w = .ok (s, r)) (he : ∀ e, r.err ≠ .tty e) (xs : List (List Char))
    (hx : ∀ x ∈ xs, ∀ c ∈ x, Readable E.cfg c.toNat) :
    ∃ a p rest o, oneLine D t n clip ks = (a, p, rest) ∧ a.answer = some r ∧
      s.out ++ xs.map (fun x => .lit (utf8 (x ++ ['\n']))) = w.out ++ o ∧ LoneRows S E.cfg adv rooms v (v.run adv (bytesOf E.cfg o)) p xs := by
  obtain ⟨a, p, rest, o, u, room, h1, h2, h3, ⟨rs, hrs⟩, a3, a4, a5, a6, a7, a8, a9, hroom, hrow⟩ : ∃ a p rest o u room, oneLine D t n clip ks = (a, p, rest) ∧ a.answer = some r ∧ s.out = w.out ++ o ∧ (∃ rs, Reads (bytesOf E.cfg o) rs) ∧
      Level (S.base v) u ∧ (v.run adv (bytesOf E.cfg o)).cells = u.newline.cells ∧
      (v.run adv (bytesOf E.cfg o)).row = u.newline.row ∧ (v.run adv (bytesOf E.cfg o)).col = 0 ∧
      (v.run adv (bytesOf E.cfg o)).mode = .ground ∧ (v.run adv (bytesOf E.cfg o)).width = v.width ∧
      (v.run adv (bytesOf E.cfg o)).height = u.newline.height ∧ rooms room ∧
      RowShows S E.cfg adv u u.row room (p.text.map Char.toNat) p.left.length := by
    by_cases hn : r.err = .nil
    · have hb := h.setting.builtin
      obtain ⟨l, p, rest, g1, g2, g3, -⟩ := line_entered h.setting hrl hn
      obtain ⟨o, u, a1, a2, a3, a4, a5, a6, a7, a8, a9, a10⟩ := call_end h hC hl hlf hrl he
      have hwid : s.termWidth = w.termWidth ∨ .resize s.termWidth ∈ w.input := by
        obtain ⟨t', htr', hst⟩ := readLine_reachable hrl
        have hbb := fun k => BuiltinKeys.builtin hb k
        exact ((reachable_says hbb true htr').trans ((step_says hbb t').ok hst)).width
      have htext : s.text = utf8 p.text := by
        rw [(C51_ordinary_partial (console_sane hC) hb (console_ordinary h hC) hrl hn).1, g2, plays_entered g1]
      have hrow := a10 hn
      rw [htext, runesOf_utf8, g3] at hrow
      refine ⟨_, p, rest, o, u, _, g1, ?_, a1, a2, a3, a4, a5, a6, a7, a8, a9, hrooms _ hwid, hrow⟩
      show some (⟨utf8 l, .nil⟩ : RLRes) = some r
      rw [← g2, ← hn]
    · obtain ⟨a, p, rest, o, u, room, h1, h2, h3, h4, h5, h6, h7, h8, h9, h10, h11, h12, h13⟩ := call_left h hC hl hlf hgu hrl he hn
      exact ⟨a, p, rest, o, u, _, h1, h2, h3, h4, h5, h6, h7, h8, h9, h10, h11, hrooms _ h12, h13⟩
  have hur : u.row < u.height := by rw [a3.row, a3.height]; exact base_row S hv
  obtain ⟨c1, c2⟩ := newline_clear hur (level_clear a3 (base_clear S hv hcl))
  have hl2 : Lifted u (v.run adv (bytesOf E.cfg o)) 1 := by
    intro k hk
    rw [a4, a5]
    exact newline_lifted hur k hk
  have hS := drop_range S
  have hl3 : Raised S v _ (1 + S.drop) := (base_raised S hv a3).trans hl2.raised hS.1
  have hat : AtRow (v.run adv (bytesOf E.cfg o)) :=
    ⟨a7, a6, by rw [a5, a9]; exact newline_row u hur, by intro y hy x; rw [a5] at hy; rw [a4]; exact c1 y hy x⟩
  have hroom' := hC.room h
  have hwide := hC.wide
  obtain ⟨rows, b1, b2, b3, b4, b5⟩ := run_prints_lines (adv := adv) (xs := xs) (v := v.run adv (bytesOf E.cfg o))
    (fun x hx' c hc => by rw [a8]; exact readable_prints hC (by omega) (hx x hx' c hc)) hat (by rw [a8]; omega)
    (by intro x; rw [a4, a5]; exact c2 x)
  have hbytes : bytesOf E.cfg (o ++ xs.map fun x => Tok.lit (utf8 (x ++ ['\n']))) = bytesOf E.cfg o ++ (xs.map fun x => utf8 (x ++ ['\n'])).flatten := by
    unfold bytesOf
    rw [List.flatMap_append, List.flatMap_map, List.flatten_eq_flatMap, List.flatMap_map]
    rfl
  refine ⟨a, p, rest, o ++ xs.map fun x => .lit (utf8 (x ++ ['\n'])), h1, h2, by rw [h3, List.append_assoc], ?_⟩
  rw [hbytes, hrs.cut]
  rw [a8] at b1
  refine ⟨b2, b3, rows, b1, b4, ⟨room, hroom, ?_⟩, fun k hk hs => ?_⟩
  · have := hl2 0 (by decide)
    rw [show (1 : Int) + 0 = 1 from rfl, show u.row - 0 = u.row by omega] at this
    unfold RowShows Sign.At at hrow ⊢
    rw [b5 1 (by decide), this]
    exact hrow
  · rw [show (rows.length : Int) + 1 + S.drop + k = rows.length + (1 + S.drop + k) by omega, b5 _ (by omega)]
    exact hl3 k hk hs

end Readline
