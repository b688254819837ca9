import Verif.Proof.TintCall
import Verif.Props.C26
import Verif.Props.C37
import Verif.Props.C46
/-!
# C72: the colours on the screen are those of the present line

C46 says in which colour a character is printed at the moment it is printed.  What is on the screen
was printed at different moments: by the key just typed, or by one long before it, when the line was
another one.  `Spec/Tint.lean` keeps the colour every column was printed in, and says which colour the
unit there has in the line as it is now.

* `C72_repaint_partial`: after a repaint the colours are right, whatever was there before.
* `C72_session_partial`: whenever a key is awaited they are right (tabs and scrolling included), for a
  colouring that does not mind where the cursor is, if `SwapChar` finds units of one width and the order
  of two characters makes no difference to the colouring.
* `C72_shown_partial`: under the assumptions of C26 the row shows the line and in these colours.
* `C72_vimBatch`, `C72_quoting`, `C72_monoChrome`: the colourings of the repository are of this kind.
* `C72_vimBatch_shown`: with `VimBatch` the column of a character has the colour C37 promises for it.
* `C72_refuted_cursor`: a colouring that looks at the mark U+E000 it is told at the cursor (this is what
  the mark is for): moving the cursor does not print what is left of it again, and the right part not either.
* `C72_refuted_swap`: a colouring that depends on the order (`//` begins a comment): Ctrl-T only
  prints the two characters, what follows keeps the colours of the line before.
-/
namespace Readline
open Spec Example

variable {E : Env} {lit : Bytes → Tint → Tint} {rlit : Bytes → Row → Row} {T0 : Tint} {s s' : St} {w : World}

theorem C72_repaint_partial (hV : Vivid E lit) (h : repaint E s = .ok s') : Tinted E s' (T0.run E.cfg lit s'.out) :=
  ((repaint_right hV).ok h).toTinted

theorem C72_session_partial (hV : Vivid E lit) (hb : BuiltinKeys E) (hE : ErrorsLast w.input)
    (hw : ∀ s k rest, Reachable E w s → s.input = .key k :: rest → lookupCommand E k = .swapChar →
      Swappable E s (T0.run E.cfg lit s.out))
    (h : Reachable E w s) (hk : noResize s.input ≠ []) : Tinted E s (T0.run E.cfg lit s.out) :=
  (session_right hV hb hE hw h hk).toTinted

/-- The row of the coloured row. -/
theorem tint_row {C : Cfg} (hl : ∀ b t, (lit b t).row = rlit b t.row) (t : Tint) (ts : List Tok) :
    (t.run C lit ts).row = Row.run C rlit t.row ts := by
  induction ts generalizing t with
  | nil => rfl
  | cons x ts ih =>
    show ((t.receive C lit x).run C lit ts).row = Row.run C rlit (t.row.receive C rlit x) ts
    rw [ih]
    cases x <;> first | rfl | (show Row.run C rlit (lit _ t).row ts = _; rw [hl]; rfl)

/-- A row that shows a line without tabs and of one width is ready for an exchange. -/
theorem Spec.Shows.swappable {t : Tint} (hw : ∀ m : Moji, 0 ≤ m.width E.cfg) (h : Shows E s t.row)
    (hs : SameWidths E s) (ht : ∀ p, Moji.tab p ∉ s.mojis) (hK : OrderBlind E.coloring) : Swappable E s t := by
  by_cases hc : s.cursor = s.len
  · exact .inl hc
  refine .inr ⟨hs, ht, ?_⟩
  by_cases hv : columns E.cfg (s.between s.viewStart (s.cursor + 1)) < s.viewWidth
  · exact .inr ⟨hv, hK⟩
  have h1 := h.low
  have h2 := h.mid
  have h3 := h.high
  obtain ⟨right, pred, p1, p2, p3, p4, -, -⟩ := h.cells
  have hp : pred = [] := by
    rcases p4 with p4 | p4
    · exact p4
    · exact absurd p4.1 hc
  subst hp
  rw [List.append_nil] at p2 p3
  have hr : right = [] := by
    cases right with
    | nil => rfl
    | cons m right =>
      exfalso
      apply hv
      have hm : s.mojis[s.cursor.toNat]? = some m := by
        obtain ⟨z, hz⟩ := p1
        have : (s.between s.cursor s.len)[0]? = some m := by rw [← hz]; rfl
        unfold St.between at this
        rw [List.getElem?_drop, Nat.add_zero, List.getElem?_take] at this
        split at this
        · exact this
        · cases this
      have e := place_succ (E := E) (s := s) (i := s.cursor.toNat) (m := m) (by omega) hm
      unfold place at e
      rw [columns_append] at p2
      have ec : ((s.cursor.toNat : Nat) : Int) = s.cursor := by omega
      rw [ec] at e
      have : 0 ≤ columns E.cfg right := Wide0.columns (fun m _ => hw m)
      have : columns E.cfg (m :: right) = m.width E.cfg + columns E.cfg right := rfl
      omega
  subst hr
  rw [List.append_nil] at p3
  refine .inl fun x hx => ?_
  have hx' : s.topColumn + columns E.cfg (s.between s.viewStart s.cursor) ≤ x := hx
  have : 0 ≤ columns E.cfg (s.between s.viewStart s.cursor) := Wide0.columns (fun m _ => hw m)
  rw [p3 x (by omega)]
  exact layout_outside (fun m _ => hw m) (.inr hx')

theorem C72_shown_partial (hV : Vivid E lit) (hS : Sane E rlit) (hl : ∀ b t, (lit b t).row = rlit b t.row)
    (hK : OrderBlind E.coloring) (hb : BuiltinKeys E) (hw : Steady E w) (h : Reachable E w s)
    (hk : noResize s.input ≠ []) :
    Shows E s (T0.run E.cfg lit s.out).row ∧ Tinted E s (T0.run E.cfg lit s.out) := by
  have key : ∀ {s : St}, Reachable E w s → noResize s.input ≠ [] → Shows E s (T0.run E.cfg lit s.out).row := by
    intro s h hk
    obtain ⟨t, e, hs⟩ := session_shows hS hb hw h hk
    rw [e, Tint.run_append, tint_row hl]
    exact hs _
  refine ⟨key h hk, C72_session_partial hV hb hw.errors (fun s k rest h hi hc => ?_) h hk⟩
  exact (key h (by rw [hi]; exact List.cons_ne_nil _ _)).swappable hV.width (hw.swap s k rest h hi hc) (hw.fine s h).tabs hK

/-! ## The colourings of the repository -/

theorem vim_order (σ : Bool × Bool) (a b : Rune) : (vimNext (vimNext σ a).1 b).1 = (vimNext (vimNext σ b).1 a).1 := by
  unfold vimNext
  dsimp only
  by_cases h1 : a = 37 <;> by_cases h2 : a = 34 <;> by_cases h3 : b = 37 <;> by_cases h4 : b = 34 <;>
    simp [h1, h2, h3, h4]

theorem quote_order (i o : Color) (σ : Bool) (a b : Rune) :
    (quoteNext i o (quoteNext i o σ a).1 b).1 = (quoteNext i o (quoteNext i o σ b).1 a).1 := by
  unfold quoteNext
  dsimp only
  by_cases h2 : a = 34 <;> by_cases h4 : b = 34 <;> simp [h2, h4]

theorem quote_answer (i o : Color) (σ : Bool) (r : Rune) :
    (quoteNext i o σ r).2 = i ∨ (quoteNext i o σ r).2 = o := by
  unfold quoteNext
  dsimp only
  generalize (_ || _ : Bool) = x
  cases x
  · exact .inr rfl
  · exact .inl rfl

theorem C72_vimBatch : Colourful vimBatch ∧ CursorBlind vimBatch ∧ OrderBlind vimBatch :=
  ⟨C46_vimBatch, fun _ => rfl, vim_order⟩

theorem C72_quoting {inside outside : Color} (h1 : 0 < inside.toInt) (h2 : 0 < outside.toInt) :
    Colourful (quoting inside outside) ∧ CursorBlind (quoting inside outside) ∧ OrderBlind (quoting inside outside) := by
  refine ⟨⟨h2, fun σ r => ?_⟩, fun σ => rfl, quote_order inside outside⟩
  show 0 < (quoteNext inside outside σ r).2.toInt
  rcases quote_answer inside outside σ r with h | h <;> rw [h] <;> assumption

theorem C72_monoChrome : Colourful monoChrome ∧ CursorBlind monoChrome ∧ OrderBlind monoChrome :=
  ⟨C46_monoChrome, fun _ => rfl, fun _ _ _ => rfl⟩

theorem afterTold_vim (rs : List Rune) : afterTold vimBatch rs = (rs.count 0x25 % 2 == 1, rs.count 0x22 % 2 == 1) := by
  have key : ∀ pre rs : List Rune, rs.foldl (fun σ r => (vimNext σ r).1)
      (pre.count 0x25 % 2 == 1, pre.count 0x22 % 2 == 1) =
      ((pre ++ rs).count 0x25 % 2 == 1, (pre ++ rs).count 0x22 % 2 == 1) := by
    intro pre rs
    induction rs generalizing pre with
    | nil => simp
    | cons r rs ih =>
      show List.foldl _ (vimNext _ r).1 rs = _
      rw [vim_state, ih, List.append_assoc]
      rfl
  exact key [] rs

/-- With `VimBatch` the columns of a unit that ends in the character `c` have the colour promised for
`c` behind the characters before it. -/
theorem C72_vimBatch_shown {lit : Bytes → Tint → Tint} (hE : E.coloring = vimBatch) (hV : Vivid E lit)
    (hb : BuiltinKeys E) (hi : ErrorsLast w.input)
    (hw : ∀ s k rest, Reachable E w s → s.input = .key k :: rest → lookupCommand E k = .swapChar →
      Swappable E s (T0.run E.cfg lit s.out))
    (h : Reachable E w s) (hk : noResize s.input ≠ []) {i : Nat} {m : Moji} {pre : List Rune} {c : Rune} {x : Int}
    (hm : s.mojis[i]? = some m) (hc : toldFor E.cfg m = pre ++ [c]) (hv : s.viewStart ≤ i) (h1 : place E s i ≤ x)
    (h2 : x < place E s i + m.width E.cfg) (hx : (T0.run E.cfg lit s.out).row.cells x ≠ none) :
    (T0.run E.cfg lit s.out).inks x = some (vimColor ((s.mojis.take i).flatMap (toldFor E.cfg) ++ pre) c) := by
  rw [(C72_session_partial (T0 := T0) hV hb hi hw h hk).inks i m x hv hm h1 h2 hx, hE]
  congr 1
  unfold colourOf
  have ht : s.mojis.take (i + 1) = s.mojis.take i ++ [m] := by rw [List.take_add_one, hm]; rfl
  rw [ht, List.flatMap_append]
  have : [m].flatMap (toldFor E.cfg) = pre ++ [c] := by simp [hc]
  rw [this, ← List.append_assoc, lastAnswer_snoc, afterTold_vim]
  exact vim_color _ _

/-! ## Examples -/

namespace Example

/-- Literal text prints nothing. -/
def still : Bytes → Tint → Tint := fun _ t => t

/-- Nothing is there. -/
def dark : Tint where
  row := ⟨0, fun _ => none, 0⟩
  ink := none
  inks := fun _ => none

theorem still_vivid {E : Env} (hK : Colourful E.coloring ∧ CursorBlind E.coloring ∧ OrderBlind E.coloring)
    (hw : ∀ m : Moji, 0 ≤ m.width E.cfg) : Vivid E still :=
  ⟨hw, hK.1, hK.2.1, fun _ => ⟨rfl, rfl⟩, fun _ => ⟨rfl, rfl⟩, fun _ => ⟨rfl, rfl⟩⟩

/-- `ab"c"d` on 12 columns (scrolled), to the beginning, a quotation mark there, exchanged with
its neighbour, one deleted, undone, a history entry. -/
def markedEnv : Env := { env plain with coloring := vimBatch, history := [b "x%y%"] }

def marked : World where
  termWidth := 12
  input := keys ["a", "b", "\"", "c", "\"", "d", "\x01", "\"", "\x14", "\x08", "\x1a", "\x05", "\x02", "\x10", "\r"]

theorem marked_steady : Steady markedEnv marked :=
  steadyCheck_ok (k := 1) (defaultKeys_builtin plain) (by decide +kernel)

theorem marked_sane : Sane markedEnv mute := mute_sane plain_widths.1 plain_widths.2

theorem marked_vivid : Vivid markedEnv still := still_vivid C72_vimBatch marked_sane.width

example {s : St} (h : Reachable markedEnv marked s) (hk : noResize s.input ≠ []) :
    Shows markedEnv s (dark.run markedEnv.cfg still s.out).row ∧ Tinted markedEnv s (dark.run markedEnv.cfg still s.out) :=
  C72_shown_partial marked_vivid marked_sane (fun _ _ => rfl) C72_vimBatch.2.2 (defaultKeys_builtin plain) marked_steady h hk

/-- The colours of the columns from the view on. -/
def inksOf (E : Env) (s : St) (n : Nat) : List (Option Color) :=
  (List.range n).map (fun (i : Nat) => (dark.run E.cfg still s.out).inks (s.topColumn + i))

/-- After the exchange the line is `a"b"c"d`. -/
example : gets markedEnv marked 9 (fun s => decide (s.text = b "a\"b\"c\"d" ∧ s.viewStart = 0 ∧
    inksOf markedEnv s 6 = [some (fgColor 9), some (fgColor 5), some (fgColor 5), some (fgColor 5), some (fgColor 9),
      some (fgColor 5)])) = true := by decide +kernel

end Example

/-! ## Refutations -/

namespace Example

/-- A colouring that paints the character the cursor is on red. -/
def spot : Coloring where
  σ := Bool
  init := false
  defaultColor := fgColor 9
  next := fun (σ : Bool) r => if r = 0xE000 then (true, fgColor 9) else (false, if σ then fgColor 1 else fgColor 9)

/-- A colouring that paints comments green: everything behind `//`. -/
def comments : Coloring where
  σ := Nat
  init := 0
  defaultColor := fgColor 9
  next := fun (σ : Nat) r =>
    if r = 0xE000 then (σ, fgColor 9)
    else if 2 ≤ σ then (2, fgColor 2)
    else if r = 0x2F then (σ + 1, fgColor 9)
    else (0, fgColor 9)

end Example

theorem spot_colourful : Colourful spot :=
  ⟨by decide, fun (σ : Bool) r => by
    show 0 < (if r = 0xE000 then (true, fgColor 9) else (false, if σ then fgColor 1 else fgColor 9)).2.toInt
    repeat' split
    all_goals decide⟩

theorem comments_colourful : Colourful comments :=
  ⟨by decide, fun (σ : Nat) r => by
    show 0 < (if r = 0xE000 then (σ, fgColor 9) else if 2 ≤ σ then (2, fgColor 2)
      else if r = 0x2F then (σ + 1, fgColor 9) else (0, fgColor 9)).2.toInt
    repeat' split
    all_goals (dsimp only; decide)⟩

theorem comments_blind : CursorBlind comments := fun _ => rfl

/-- `ab`, to the beginning and one forward: `a` still has the colour of the cursor, `b`, where the
cursor is now, has not. -/
theorem C72_refuted_cursor : Colourful spot ∧
    ∃ s, Reachable { env plain with coloring := spot } { input := keys ["a", "b", "\x01", "\x06", "\r"] } s ∧
      noResize s.input ≠ [] ∧ s.text = b "ab" ∧ s.cursor = 1 ∧ s.viewStart = 0 ∧
      (unitColors plain spot s.mojis s.cursor 0 2).map some = [some (fgColor 9), some (fgColor 1)] ∧
      inksOf { env plain with coloring := spot } s 2 = [some (fgColor 1), some (fgColor 9)] := by
  refine ⟨spot_colourful, ?_⟩
  obtain ⟨s, h1, h2⟩ := gets_ok (E := { env plain with coloring := spot })
    (w := { input := keys ["a", "b", "\x01", "\x06", "\r"] }) (n := 4)
    (p := fun s => decide (noResize s.input ≠ [] ∧ s.text = b "ab" ∧ s.cursor = 1 ∧ s.viewStart = 0 ∧
      (unitColors plain spot s.mojis s.cursor 0 2).map some = [some (fgColor 9), some (fgColor 1)] ∧
      inksOf { env plain with coloring := spot } s 2 = [some (fgColor 1), some (fgColor 9)])) (by decide +kernel)
  have f := of_decide_eq_true h2
  exact ⟨s, h1, f⟩

/-- `/x/yz` with the cursor on the `x`: Ctrl-T makes `x//yz`, a comment behind the second slash, but `yz`
keeps its colour. -/
theorem C72_refuted_swap : Colourful comments ∧ CursorBlind comments ∧
    ∃ s, Reachable { env plain with coloring := comments }
        { input := keys ["/", "x", "/", "y", "z", "\x01", "\x06", "\x14", "\r"] } s ∧
      noResize s.input ≠ [] ∧ s.text = b "x//yz" ∧ s.viewStart = 0 ∧
      (List.range 5).map (colourOf plain comments s.mojis) = [fgColor 9, fgColor 9, fgColor 9, fgColor 2, fgColor 2] ∧
      inksOf { env plain with coloring := comments } s 5 = List.replicate 5 (some (fgColor 9)) := by
  refine ⟨comments_colourful, comments_blind, ?_⟩
  obtain ⟨s, h1, h2⟩ := gets_ok (E := { env plain with coloring := comments })
    (w := { input := keys ["/", "x", "/", "y", "z", "\x01", "\x06", "\x14", "\r"] }) (n := 8)
    (p := fun s => decide (noResize s.input ≠ [] ∧ s.text = b "x//yz" ∧ s.viewStart = 0 ∧
      (List.range 5).map (colourOf plain comments s.mojis) = [fgColor 9, fgColor 9, fgColor 9, fgColor 2, fgColor 2] ∧
      inksOf { env plain with coloring := comments } s 5 = List.replicate 5 (some (fgColor 9)))) (by decide +kernel)
  have f := of_decide_eq_true h2
  exact ⟨s, h1, f⟩

end Readline
