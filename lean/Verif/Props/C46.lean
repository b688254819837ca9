import Verif.Proof.InkCall
import Verif.Proof.Steady
import Verif.Model.Misc
import Verif.Props.C01
/-!
# C46: characters are printed in the colour the Coloring gives them

`Spec/Ink.lean` says what a `Coloring` is told (the code points of the line in order, U+E000 before
the character the cursor is on), which colour it gives to a unit, and which colour sequence was
written last before a unit was printed.

* `C46_puts_partial`: whenever part of the line is printed, every unit of it is printed in its
  colour, whichever part it is, and afterwards the default colour is in force again.
* `C46_repaint_partial`: the same for a whole repaint, prediction included.
* `C46_session_partial`: everything printed in a session is of this kind, a prediction, or text found
  by the incremental search; whenever a key is awaited, also inside a command, the colour in force is
  the default colour, or the one from before the call if nothing was printed yet.
* `C46_vimBatch`, `C46_monoChrome`: the colourings that come with the library meet the assumption.
* `C46_refuted`: without it (all colours positive) the statement is false.  A colour of 0 or less
  writes nothing at all, so the characters appear in the colour of those before them, and with a
  default colour of 0 the colour is still in force when the next key is awaited.
-/
namespace Readline
open Spec Example

variable {E : Env} {s s' : St} {w : World}

theorem C46_puts_partial {lo hi : Int} (hK : Colourful E.coloring) (h : puts E s lo hi = .ok s') :
    ∃ t, s'.out = s.out ++ t ∧ ∀ c,
      (inked c t).map Prod.fst = s'.between lo hi ∧
      (inked c t).map Prod.snd = (unitColors E.cfg E.coloring s.mojis s.cursor lo.toNat hi.toNat).map some ∧
      inkAfter c t = some E.coloring.defaultColor := by
  obtain ⟨_, _, _, _, _, t, e, _, hi'⟩ := puts_inked hK h
  exact ⟨t, e, hi'⟩

theorem inked_glyphs (c : Option Color) (l : List Moji) :
    inked c (l.map Tok.glyph) = l.map (fun m => (m, c)) ∧ inkAfter c (l.map Tok.glyph) = c := by
  induction l with
  | nil => exact ⟨rfl, rfl⟩
  | cons m l ih => exact ⟨by rw [List.map_cons, inked, ih.1]; rfl, by rw [List.map_cons, inkAfter, ih.2]; all_goals simp⟩

theorem unitColors_congr {K : Coloring} {C : Cfg} {l l' : List Moji} (h : l.map (toldFor C) = l'.map (toldFor C))
    (cursor : Int) (lo hi : Nat) : unitColors C K l cursor lo hi = unitColors C K l' cursor lo hi := by
  have : unitColor C K l cursor = unitColor C K l' cursor := by
    funext i
    simp only [unitColor, toldBefore_congr h]
  rw [unitColors, unitColors, this]

/-- The units in view, then the prediction in the default colour (and what `PredictColor` makes of
it), then the units between `ViewStart` and the cursor once more. -/
theorem C46_repaint_partial (hK : Colourful E.coloring) (h : repaint E s = .ok s') :
    ∃ t n pred, s'.out = s.out ++ t ∧ ∀ c,
      (inked c t).map Prod.snd =
        (unitColors E.cfg E.coloring s.mojis s.cursor s.viewStart.toNat (s.viewStart + (n : Nat)).toNat).map some ++
        (List.replicate pred (some E.coloring.defaultColor) ++
        (unitColors E.cfg E.coloring s.mojis s.cursor s.viewStart.toNat s.cursor.toNat).map some) ∧
      inkAfter c t = some E.coloring.defaultColor := by
  obtain ⟨x, e⟩ := updateSuffix_eq E s
  unfold repaint repaintNoSuffix at h
  rw [e] at h
  obtain ⟨⟨n, wd⟩, _, h⟩ := bind_ok.mp h
  obtain ⟨s1, h1, h⟩ := bind_ok.mp h
  obtain ⟨s2, h2, h⟩ := bind_ok.mp h
  obtain ⟨⟨o1, q1⟩, _⟩ := puts_draws (lit := fun _ r => r) h1
  obtain ⟨_, _, _, _, c1, t1, e1, _, i1⟩ := puts_inked hK h1
  have hs2 : ∃ l : List Moji, ∃ tl, s2 = { s1 with out := s1.out ++ tl } ∧
      ∀ c, inked c tl = l.map (fun m => (m, c)) ∧ inkAfter c tl = c := by
    split at h2
    · obtain ⟨s3, h3, h2⟩ := bind_ok.mp h2
      obtain ⟨l, el⟩ := suffixLoop_glyphs _ _ h3
      cases pure_ok.mp h2
      refine ⟨l, [.lit E.predictColor.1] ++ l.map Tok.glyph ++ [.lit E.predictColor.2], ?_, fun c => ?_⟩
      · rw [el]; simp [St.emit]
      · rw [inked_append, inked_append, inkAfter_append, inkAfter_append]
        have e1 := inked_glyphs c l
        have h1 : ∀ c b, inked c [.lit b] = [] := fun _ _ => rfl
        have h2 : ∀ c b, inkAfter c [.lit b] = c := fun _ _ => rfl
        simp only [inkAfter_append, h1, h2, e1.1, e1.2, List.nil_append, List.append_nil, and_self]
    · cases pure_ok.mp h2
      exact ⟨[], [], by simp, fun c => ⟨rfl, rfl⟩⟩
  obtain ⟨l, tl, q2, i2⟩ := hs2
  obtain ⟨_, _, _, _, c3, t3, e3, _, i3⟩ := puts_inked hK h
  have hb2 : (gotoHead (eraseline s2)).buf = s1.buf := by rw [q2]; rfl
  have hc2 : (gotoHead (eraseline s2)).cursor = s.cursor := by rw [q2, q1]; rfl
  have hv2 : (gotoHead (eraseline s2)).viewStart = s.viewStart := by rw [q2, q1]; rfl
  have ho2 : (gotoHead (eraseline s2)).out = s1.out ++ tl ++ [.eraseEol] ++
      [.gotoCol ((eraseline s2).topColumn + 1)] := by rw [q2]; rfl
  rw [hb2, hc2, hv2] at i3
  have hcol : ∀ lo hi, unitColors E.cfg E.coloring (s1.buf.map Cell.moji) s.cursor lo hi =
      unitColors E.cfg E.coloring s.mojis s.cursor lo hi := fun lo hi =>
    unitColors_congr (by rw [List.map_map]; unfold St.mojis; rw [List.map_map]; exact c1) _ _ _
  refine ⟨[.gotoCol (s.topColumn + 1)] ++ t1 ++ (tl ++ [.eraseEol, .gotoCol ((eraseline s2).topColumn + 1)] ++ t3), n, l.length, ?_, fun c => ?_⟩
  · rw [e3, ho2, e1]
    simp [gotoHead, St.emit]
  · have a1 := i1 c
    have hg : ∀ c, inkAfter c [Tok.gotoCol (s.topColumn + 1)] = c := fun _ => rfl
    have hg' : ∀ c, inked c [Tok.gotoCol (s.topColumn + 1)] = [] := fun _ => rfl
    have hk : ∀ c, inkAfter c [.eraseEol, .gotoCol ((eraseline s2).topColumn + 1)] = c := fun _ => rfl
    have hk' : ∀ c, inked c [.eraseEol, .gotoCol ((eraseline s2).topColumn + 1)] = [] := fun _ => rfl
    simp only [inked_append, inkAfter_append, hg, hg', hk, hk', a1.2.2, (i2 _).1, (i2 _).2, (i3 _).2.2]
    refine ⟨?_, trivial⟩
    simp only [List.map_append, List.nil_append, List.append_nil]
    have a1' : List.map Prod.snd (inked c t1) = (unitColors E.cfg E.coloring s.mojis s.cursor s.viewStart.toNat
      (s.viewStart + (n : Int)).toNat).map some := a1.2.1
    have hr : List.map Prod.snd (l.map fun m => (m, some E.coloring.defaultColor)) =
        List.replicate l.length (some E.coloring.defaultColor) := by
      rw [List.map_map]
      exact List.map_const' ..
    rw [a1', (i3 _).2.1, hcol, hr]

/-- The colour is the default one, or the one from before. -/
def Spec.Settled (E : Env) (c0 c : Option Color) : Prop := c = c0 ∨ c = some E.coloring.defaultColor

theorem Spec.Inked.settled {t : List Tok} (h : Inked E t) :
    ∀ c0 c, Settled E c0 c → Settled E c0 (inkAfter c t) ∧
      ∀ a b, t = a ++ .await :: b → Settled E c0 (inkAfter c a) := by
  induction h with
  | nil => exact fun c0 c hc => ⟨hc, fun a b e => by simp at e⟩
  | @append x y _ _ ihx ihy =>
    intro c0 c hc
    obtain ⟨x1, x2⟩ := ihx c0 c hc
    obtain ⟨y1, y2⟩ := ihy c0 _ x1
    refine ⟨by rw [inkAfter_append]; exact y1, fun a b e => ?_⟩
    rcases List.append_eq_append_iff.mp e with ⟨k, e1, e2⟩ | ⟨k, e1, e2⟩
    · rw [e1, inkAfter_append]
      exact y2 k b e2
    · cases k with
      | nil =>
        rw [List.append_nil] at e1
        rw [← e1]; exact x1
      | cons z k =>
        cases e2
        exact x2 a k e1
  | other t hg hs =>
    intro c0 c hc
    have : inkAfter c [t] = c := by
      cases t with
      | sgr d => exact absurd rfl (hs d)
      | _ => rfl
    refine ⟨by rw [this]; exact hc, fun a b e => ?_⟩
    cases a with
    | nil => exact hc
    | cons z a => simp at e
  | line line cursor lo hi ts _ _ hk _ _ hd =>
    intro c0 c hc
    refine ⟨Or.inr (hd c), fun a b e => ?_⟩
    have := hk .await (by rw [e]; simp)
    rcases this with ⟨m, h⟩ | ⟨d, h⟩ <;> cases h
  | predicted ms _ =>
    intro c0 c hc
    have e1 := inked_glyphs c ms
    refine ⟨?_, fun a b e => ?_⟩
    · have h2 : ∀ c b, inkAfter c [.lit b] = c := fun _ _ => rfl
      simp only [inkAfter_append, h2, e1.2]
      exact hc
    · have : Tok.await ∈ [Tok.lit E.predictColor.1] ++ ms.map Tok.glyph ++ [Tok.lit E.predictColor.2] := by
        rw [e]; simp
      simp at this
  | search ms =>
    intro c0 c hc
    refine ⟨by rw [(inked_glyphs c ms).2]; exact hc, fun a b e => ?_⟩
    have : Tok.await ∈ ms.map Tok.glyph := by rw [e]; simp
    simp at this

/-- Sessions.  `c0` is the colour in force before the call. -/
theorem C46_session_partial (hb : BuiltinKeys E) (hK : Colourful E.coloring) (h : Reachable E w s) :
    ∃ t, s.out = w.out ++ t ∧ Inked E t ∧ ∀ c0,
      Settled E c0 (inkAfter c0 t) ∧ ∀ a b, t = a ++ .await :: b → Settled E c0 (inkAfter c0 a) := by
  obtain ⟨t, e, hi⟩ := reachable_k (BuiltinKeys.builtin hb) h hK
  exact ⟨t, e, hi, fun c0 => hi.settled c0 c0 (Or.inl rfl)⟩

/-- The assumption holds of the colourings that come with the library. -/
theorem C46_vimBatch : Colourful vimBatch := by
  refine ⟨by decide, fun σ r => ?_⟩
  show 0 < (vimNext σ r).2.toInt
  unfold vimNext
  dsimp only
  generalize (_ || _ : Bool) = x
  generalize (_ || _ : Bool) = y
  repeat' split
  all_goals decide

theorem C46_monoChrome : Colourful monoChrome := ⟨by decide, fun _ _ => by show 0 < defaultForeGroundColor.toInt; decide⟩

/-! ## Examples -/

namespace Example

def coloured : Env := { env plain with coloring := vimBatch }

/-- `a%b"` typed, then one step back: the quotation mark is printed in the colour of the `%` area. -/
example : gets coloured { input := keys ["a", "%", "b", "\"", "\x02", "\r"] } 5 (fun s => decide (
    s.cursor = 3 ∧ unitColors plain vimBatch s.mojis s.cursor 0 4 = [fgColor 9, fgColor 6, fgColor 6, fgColor 6] ∧
    inkAfter none s.out = some colorReset ∧
    (inked none s.out).getLast? = some (.raw 98, some (fgColor 6)))) = true := by decide +kernel

end Example

/-! ## Refutation -/

namespace Example

/-- A colouring that paints `a` red and leaves everything else alone. -/
def onlyA : Coloring where
  σ := Unit
  init := ()
  defaultColor := 0#64
  next := fun _ r => ((), if r = 97 then fgColor 1 else 0#64)

end Example

/-- `ab` with a colouring that answers red for `a` and 0 for everything else: `b` is printed in
red, too, and red is still in force when the next key is awaited. -/
theorem C46_refuted : ∃ s, Reachable { env plain with coloring := onlyA } { input := keys ["a", "b", "\r"] } s ∧
    unitColors plain onlyA s.mojis s.cursor 0 2 = [fgColor 1, 0#64] ∧
    (inked none s.out).getLast? = some (.raw 98, some (fgColor 1)) ∧
    inkAfter none s.out = some (fgColor 1) := by
  obtain ⟨s, h1, h2⟩ := gets_ok (E := { env plain with coloring := onlyA }) (w := { input := keys ["a", "b", "\r"] }) (n := 2)
    (p := fun s => decide (unitColors plain onlyA s.mojis s.cursor 0 2 = [fgColor 1, 0#64] ∧
      (inked none s.out).getLast? = some (.raw 98, some (fgColor 1)) ∧
      inkAfter none s.out = some (fgColor 1))) (by decide +kernel)
  exact ⟨s, h1, of_decide_eq_true h2⟩

end Readline
