import Verif.Spec.Text
/-!
# Specification vocabulary: splitting text into units

`rejoin zwj` says what text comes back when a string is cut into editing units and written
out again: with joining enabled, a join control (U+200C or U+200D) that follows another
character is written as U+200D, and when nothing follows it U+FFFD is put there.
-/
namespace Readline.Spec

/-- Where `rejoin` is: nothing read yet, after some unit, or right after a join control. -/
inductive JoinMode where
  | fresh | started | joining
deriving DecidableEq

/-- Code points after cutting and writing back. -/
def rejoin (zwj : Bool) : JoinMode → List Nat → List Nat
  | .joining, [] => [0xFFFD]
  | .joining, n :: rs => n :: rejoin zwj .started rs
  | _, [] => []
  | .fresh, r :: rs => r :: rejoin zwj .started rs
  | .started, r :: rs =>
    if zwj ∧ (r = 0x200C ∨ r = 0x200D) then 0x200D :: rejoin zwj .joining rs
    else r :: rejoin zwj .started rs

theorem rejoin_off (m : JoinMode) (hm : m ≠ .joining) (rs : List Nat) : rejoin false m rs = rs := by
  induction rs generalizing m with
  | nil => cases m <;> simp_all [rejoin]
  | cons r rs ih => cases m <;> simp_all [rejoin]

/-- Nothing changes when there is no U+200C and the text does not end in U+200D. -/
theorem rejoin_id (zwj : Bool) (m : JoinMode) (rs : List Nat) (h1 : 0x200C ∉ rs)
    (h2 : rs.getLast? ≠ some 0x200D) (h3 : m = .joining → rs ≠ []) : rejoin zwj m rs = rs := by
  induction rs generalizing m with
  | nil => cases m <;> simp_all [rejoin]
  | cons r rs ih =>
    have hr : r ≠ 0x200C := by intro h; subst h; simp at h1
    have h1' : 0x200C ∉ rs := by intro h; exact h1 (List.mem_cons_of_mem _ h)
    have h2' : rs.getLast? ≠ some 0x200D := by
      cases rs with
      | nil => simp
      | cons a l => simpa [List.getLast?_cons_cons] using h2
    cases m with
    | fresh => rw [rejoin, ih _ h1' h2' (by simp)]
    | joining => rw [rejoin, ih _ h1' h2' (by simp)]
    | started =>
      rw [rejoin]
      split
      · rename_i hc
        have hr' : r = 0x200D := by simpa [hr] using hc.2
        have : rs ≠ [] := by
          rintro rfl
          simp [hr'] at h2
        rw [ih _ h1' h2' (fun _ => this), hr']
      · rw [ih _ h1' h2' (by simp)]

end Readline.Spec
