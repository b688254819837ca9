import Verif.Spec.Line
import Verif.Proof.Slice
import Verif.Model.Commands
/-!
# Drawing changes nothing but colours, tab columns and output
-/
namespace Readline

theorem bind_ok {x : M α} {f : α → M β} {b : β} :
    (x >>= f) = .ok b ↔ ∃ a, x = .ok a ∧ f a = .ok b := by
  cases x with
  | ok a => simp [bind, Except.bind]
  | error e => simp [bind, Except.bind]

theorem pure_ok {a b : α} : (pure a : M α) = .ok b ↔ a = b := by
  simp [pure, Except.pure]

/-- `s'` is `s` up to colours, positions and output. -/
def Same (s s' : St) : Prop :=
  s'.line = s.line ∧ ∃ b o, s' = { s with buf := b, out := o }

theorem Same.refl (s : St) : Same s s := ⟨rfl, s.buf, s.out, rfl⟩

theorem Same.trans {a b c : St} (h : Same a b) (h' : Same b c) : Same a c := by
  obtain ⟨h1, b1, o1, rfl⟩ := h
  obtain ⟨h2, b2, o2, rfl⟩ := h'
  exact ⟨h2.trans h1, b2, o2, rfl⟩

theorem Same.emit (s : St) (t : Tok) : Same s (s.emit t) := ⟨rfl, s.buf, s.out ++ [t], rfl⟩

theorem Same.length {s s' : St} (h : Same s s') : s'.buf.length = s.buf.length := by
  have := congrArg List.length h.1
  simpa [St.line_length] using this

theorem Same.len {s s' : St} (h : Same s s') : s'.len = s.len := by
  simp [St.len, h.length]

theorem Same.text {s s' : St} (h : Same s s') : s'.text = s.text := by
  rw [St.text_eq, St.text_eq, h.1]

theorem printMoji_same {s s' : St} {m : Moji} (h : printMoji s m = .ok s') : Same s s' := by
  unfold printMoji at h
  split at h
  · cases h
  · cases h; exact Same.emit _ _

theorem putsLoop_same {cs : List Cell} {c : Color} {s : St} {p : St × Color}
    (h : putsLoop cs c s = .ok p) : Same s p.1 := by
  induction cs generalizing c s with
  | nil => cases h; exact Same.refl _
  | cons x xs ih =>
    unfold putsLoop at h
    obtain ⟨s1, h1, h2⟩ := bind_ok.mp h
    have e1 := printMoji_same h1
    refine Same.trans ?_ (ih h2)
    refine Same.trans ?_ e1
    split
    · exact Same.emit _ _
    · exact Same.refl _

theorem refreshCell_norm (C : Cfg) (K : Coloring) (σ : K.σ) (p : Int) (c : Cell) :
    (refreshCell C K σ p c).2.2.moji.norm = c.moji.norm := by
  unfold refreshCell
  split
  · rename_i h; simp [h, Moji.norm]
  · split <;> rfl

theorem refreshLoop_norm (C : Cfg) (K : Coloring) (cursor : Int) (σ : K.σ) (i p : Int)
    (cs : List Cell) :
    (refreshLoop C K cursor σ i p cs).map (fun c => c.moji.norm) = cs.map (fun c => c.moji.norm) := by
  induction cs generalizing σ i p with
  | nil => rfl
  | cons c cs ih =>
    simp only [refreshLoop, List.map_cons, refreshCell_norm, ih]

theorem refreshColor_same {E : Env} {s s' : St} (h : refreshColor E s = .ok s') : Same s s' := by
  unfold refreshColor at h
  split at h
  · cases h
  · cases h
    exact ⟨refreshLoop_norm .., _, s.out, rfl⟩

theorem puts_same {E : Env} {s s' : St} {lo hi : Int} (h : puts E s lo hi = .ok s') :
    Same s s' ∧ 0 ≤ lo ∧ lo ≤ hi ∧ hi ≤ s.len := by
  unfold puts at h
  obtain ⟨x, h0, h⟩ := bind_ok.mp h
  obtain ⟨s1, h1, h⟩ := bind_ok.mp h
  obtain ⟨cs, h2, h⟩ := bind_ok.mp h
  obtain ⟨⟨s2, col⟩, h3, h⟩ := bind_ok.mp h
  have hs := slice_ok h0
  refine ⟨?_, hs.1, hs.2.1, hs.2.2.1⟩
  have e := (refreshColor_same h1).trans (putsLoop_same h3)
  simp only [pure_ok] at h
  subst h
  split
  · exact e.trans (Same.emit _ _)
  · exact e

theorem suffixLoop_same {C : Cfg} {vw : Int} {ms : List Moji} {w : Int} {s s' : St}
    (h : suffixLoop C vw ms w s = .ok s') : Same s s' := by
  induction ms generalizing w s with
  | nil => cases h; exact Same.refl _
  | cons m ms ih =>
    unfold suffixLoop at h
    dsimp only at h
    split at h
    · cases h; exact Same.refl _
    · obtain ⟨s1, h1, h2⟩ := bind_ok.mp h
      exact (printMoji_same h1).trans (ih h2)

theorem getView2_ok {E : Env} {s : St} {p : Nat × Int} (h : getView2 E s = .ok p) :
    0 ≤ s.viewStart ∧ s.viewStart ≤ s.cursor ∧ s.cursor ≤ s.len := by
  unfold getView2 at h
  obtain ⟨⟨n, w⟩, h0, h⟩ := bind_ok.mp h
  obtain ⟨x, h1, h⟩ := bind_ok.mp h
  have := slice_ok h1
  exact ⟨this.1, this.2.1, this.2.2.1⟩

theorem repaintNoSuffix_same {E : Env} {s s' : St} (h : repaintNoSuffix E s = .ok s') :
    Same s s' ∧ 0 ≤ s.viewStart ∧ s.viewStart ≤ s.cursor ∧ s.cursor ≤ s.len := by
  unfold repaintNoSuffix at h
  obtain ⟨⟨n, w⟩, h0, h⟩ := bind_ok.mp h
  obtain ⟨s1, h1, h⟩ := bind_ok.mp h
  obtain ⟨s2, h2, h⟩ := bind_ok.mp h
  refine ⟨?_, getView2_ok h0⟩
  have e1 : Same s s1 := (Same.emit s _).trans (puts_same h1).1
  have e2 : Same s1 s2 := by
    split at h2
    · obtain ⟨s3, h3, h4⟩ := bind_ok.mp h2
      simp only [pure_ok] at h4
      subst h4
      exact (Same.emit _ _).trans ((suffixLoop_same h3).trans (Same.emit _ _))
    · simp only [pure_ok] at h2
      subst h2; exact Same.refl _
  exact (e1.trans e2).trans (((Same.emit _ _).trans (Same.emit _ _)).trans (puts_same h).1)

/-- A state and the prediction that belongs to it. -/
theorem repaint_same {E : Env} {s s' : St} (h : repaint E s = .ok s') :
    Same (updateSuffix E s) s' ∧ 0 ≤ s.viewStart ∧ s.viewStart ≤ s.cursor ∧ s.cursor ≤ s.len := by
  have := repaintNoSuffix_same h
  refine ⟨this.1, ?_⟩
  have h2 := this.2
  unfold updateSuffix St.len at *
  split at h2
  · exact h2
  · split at h2 <;> exact h2

theorem drawLoop_same {C : Cfg} {vw : Int} {ms : List Moji} {dw : Int} {s s' : St}
    (h : drawLoop C vw ms dw s = .ok s') : Same s s' := by
  induction ms generalizing dw s with
  | nil => cases h; exact Same.refl _
  | cons m ms ih =>
    unfold drawLoop at h
    dsimp only at h
    split at h
    · cases h; exact Same.refl _
    · obtain ⟨s1, h1, h2⟩ := bind_ok.mp h
      exact (printMoji_same h1).trans (ih h2)

end Readline
