import Verif.Model.Buffer
/-!
# C19: the default prediction is a correct suffix of a history line
-/
namespace Readline

/-- `hist[i]` is the most recent line of the history that starts with `line`. -/
def Spec.MostRecent (hist : List Bytes) (line : Bytes) (i : Nat) : Prop :=
  (∃ h, hist[i]? = some h ∧ line <+: h) ∧ ∀ (j : Nat) (h : Bytes), i < j → hist[j]? = some h → ¬ line <+: h

theorem predictLoop_spec (cur : Bytes) (l : List Bytes) :
    (∃ (i : Nat) (h : Bytes), l[i]? = some h ∧ cur ++ predictLoop cur l = h ∧
        ∀ (j : Nat) (h' : Bytes), j < i → l[j]? = some h' → ¬ cur <+: h') ∨
      (predictLoop cur l = [] ∧ ∀ h ∈ l, ¬ cur <+: h) := by
  induction l with
  | nil => right; simp [predictLoop]
  | cons a l ih =>
    unfold predictLoop
    by_cases hp : cur <+: a
    · left
      refine ⟨0, a, rfl, ?_, fun j _ hj => absurd hj (by omega)⟩
      rw [if_pos (by simpa using hp)]
      obtain ⟨t, rfl⟩ := hp
      simp
    · have : ¬ (cur.isPrefixOf a = true) := by simpa using hp
      rw [if_neg this]
      rcases ih with ⟨i, h, h1, h2, h3⟩ | ⟨h1, h2⟩
      · left
        refine ⟨i + 1, h, by simpa using h1, h2, ?_⟩
        intro j h' hj hg
        cases j with
        | zero => simp at hg; subst hg; exact hp
        | succ j => exact h3 j h' (by omega) (by simpa using hg)
      · right
        refine ⟨h1, ?_⟩
        intro h hm
        rcases List.mem_cons.mp hm with rfl | hm
        · exact hp
        · exact h2 h hm

/-- The prediction completes the current line to the most recent history line starting with
it, or is empty when there is none. -/
theorem C19 (hist : List Bytes) (line : Bytes) :
    (∃ i : Nat, Spec.MostRecent hist line i ∧ hist[i]? = some (line ++ predictByHistory hist line)) ∨
      ((∀ h ∈ hist, ¬ line <+: h) ∧ predictByHistory hist line = []) := by
  unfold predictByHistory
  rcases predictLoop_spec line hist.reverse with ⟨i, h, h1, h2, h3⟩ | ⟨h1, h2⟩
  · left
    have hi : i < hist.length := by
      have := (List.getElem?_eq_some_iff.mp h1).1
      simpa using this
    have h1' : hist[hist.length - 1 - i]? = some h := by
      rwa [List.getElem?_reverse hi] at h1
    refine ⟨hist.length - 1 - i, ⟨⟨h, h1', ?_⟩, ?_⟩, by rw [h2]; exact h1'⟩
    · exact ⟨_, h2⟩
    · intro j h' hj hg
      have hjl : j < hist.length := (List.getElem?_eq_some_iff.mp hg).1
      refine h3 (hist.length - 1 - j) h' (by omega) ?_
      rw [List.getElem?_reverse (by omega)]
      have : hist.length - 1 - (hist.length - 1 - j) = j := by omega
      rw [this]; exact hg
  · right
    exact ⟨fun h hm => h2 h (by simpa using hm), h1⟩

/-- Non-vacuity: two lines start with `g`; the later one is predicted. -/
example : predictByHistory [[103, 105, 116], [103, 111], [108, 115]] [103] = [111] := by decide
example : Spec.MostRecent [[103, 105, 116], [103, 111], [108, 115]] [103] 1 := by
  refine ⟨⟨[103, 111], rfl, by decide⟩, ?_⟩
  intro j h hj hg
  match j, hj, hg with
  | 2, _, hg => simp at hg; subst hg; decide
  | n + 3, _, hg => simp at hg

end Readline
