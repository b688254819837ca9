import Verif.Model.Buffer
/-!
# Lemmas about slices
-/
namespace Readline

theorem sliceInsert_eq (l : List α) (pos : Nat) (es : List α) (h : pos ≤ l.length) :
    sliceInsert l pos es = l.take pos ++ es ++ l.drop pos := by
  obtain ⟨a, c, rfl, rfl⟩ : ∃ a c, l = a ++ c ∧ pos = a.length :=
    ⟨l.take pos, l.drop pos, by simp, by simp [h]⟩
  unfold sliceInsert goCopyWithin goCopyInto
  have h1 : min ((a ++ c ++ es).length - (a.length + es.length)) ((a ++ c ++ es).length - a.length)
      = c.length := by simp only [List.length_append]; omega
  simp only [h1, Nat.min_self]
  have h2 : (a ++ c ++ es).drop (a.length + es.length + c.length) = [] := by
    apply List.drop_eq_nil_of_le; simp only [List.length_append]; omega
  have h3 : ((a ++ c ++ es).drop a.length).take c.length = c := by
    rw [List.append_assoc, List.drop_left, List.take_left]
  rw [h2, h3, List.append_nil]
  have hl : ((a ++ c ++ es).take (a.length + es.length)).length = a.length + es.length := by
    simp only [List.length_take, List.length_append]; omega
  have h4 : ((a ++ c ++ es).take (a.length + es.length) ++ c).take a.length = a := by
    rw [List.take_append_of_le_length (by omega), List.take_take, Nat.min_eq_left (by omega),
      List.append_assoc, List.take_left]
  have h5 : ((a ++ c ++ es).take (a.length + es.length) ++ c).drop (a.length + es.length) = c := by
    rw [List.drop_append_of_le_length (by omega), List.drop_eq_nil_of_le (by omega)]
    rfl
  rw [h4, h5]
  simp

theorem sliceDelete_eq (l : List α) (pos n : Nat) (h : pos + n ≤ l.length) :
    sliceDelete l pos n = l.take pos ++ l.drop (pos + n) := by
  obtain ⟨a, d, c, rfl, rfl, rfl⟩ : ∃ a d c, l = a ++ (d ++ c) ∧ pos = a.length ∧ n = d.length :=
    ⟨l.take pos, (l.drop pos).take n, (l.drop pos).drop n,
      by rw [List.take_append_drop, List.take_append_drop], by simp; omega, by simp; omega⟩
  unfold sliceDelete goCopyWithin
  have h1 : min ((a ++ (d ++ c)).length - a.length)
      ((a ++ (d ++ c)).length - (a.length + d.length)) = c.length := by
    simp only [List.length_append]; omega
  simp only [h1]
  have h2 : (a ++ (d ++ c)).drop (a.length + d.length) = c := by
    rw [← List.append_assoc, ← List.length_append, List.drop_left]
  have h3 : (a ++ (d ++ c)).take a.length = a := List.take_left
  have h4 : (a ++ (d ++ c)).length - d.length = (a ++ c).length := by
    simp only [List.length_append]; omega
  rw [h2, h3, h4, List.take_length, List.take_left]

/-- What a successful slice is. -/
theorem slice_ok {s : St} {l : List α} {lo hi : Int} {r : List α} (h : slice s l lo hi = .ok r) :
    0 ≤ lo ∧ lo ≤ hi ∧ hi ≤ l.length ∧ r = (l.take hi.toNat).drop lo.toNat := by
  unfold slice at h
  split at h
  · rename_i hc
    split at h
    · rename_i hl; cases h; exact ⟨hc.1, hc.2, hl, rfl⟩
    · cases h
  · cases h

theorem slice_eq {s : St} {l : List α} {lo hi : Int} (h1 : 0 ≤ lo) (h2 : lo ≤ hi)
    (h3 : hi ≤ l.length) : slice s l lo hi = .ok ((l.take hi.toNat).drop lo.toNat) := by
  unfold slice
  rw [if_pos ⟨h1, h2⟩, if_pos h3]

theorem index_ok {s : St} {l : List α} {i : Int} {a : α} (h : index s l i = .ok a) :
    0 ≤ i ∧ i < l.length ∧ l[i.toNat]? = some a := by
  unfold index at h
  split at h
  · cases h
  · split at h
    · rename_i a' ha
      cases h
      have := (List.getElem?_eq_some_iff.mp ha).1
      exact ⟨by omega, by omega, ha⟩
    · cases h

end Readline
