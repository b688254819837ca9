import Verif.Model.Misc
/-!
# C45: simplehistory is a faithful log
-/
namespace Readline

/-- After adding the strings `l` one by one to `c`. -/
def addAll (c : Container) (l : List Bytes) : Container := l.foldl Container.add c

theorem addAll_buffer (c : Container) (l : List Bytes) : (addAll c l).buffer = c.buffer ++ l := by
  induction l generalizing c with
  | nil => simp [addAll]
  | cons a l ih =>
    simp only [addAll, List.foldl_cons] at ih ⊢
    rw [ih]; simp [Container.add]

/-- From an empty container, `Len` is the number of `Add` calls and `At(i)` the i-th string;
`At` outside panics. -/
theorem C45 (l : List Bytes) :
    (addAll {} l).len = l.length ∧
    (∀ i : Nat, (addAll {} l).at i = l[i]?) ∧
    (∀ i : Int, (addAll {} l).at i = none ↔ i < 0 ∨ (l.length : Int) ≤ i) := by
  have h := addAll_buffer {} l
  simp only [List.nil_append] at h
  refine ⟨by simp [Container.len, h], ?_, ?_⟩
  · intro i
    unfold Container.at
    rw [if_neg (by omega), h]
    simp
  · intro i
    unfold Container.at
    split
    · simp [*]
    · rw [h, List.getElem?_eq_none_iff]
      omega

/-- An `Add` later on keeps what was logged. -/
theorem C45_stable (l : List Bytes) (s : Bytes) (i : Nat) (h : i < l.length) :
    (addAll {} (l ++ [s])).at i = (addAll {} l).at i := by
  rw [(C45 (l ++ [s])).2.1, (C45 l).2.1, List.getElem?_append_left h]

example : (addAll {} [[1], [2], [3]]).at 1 = some [2] := by decide

end Readline
