import Verif.Spec.Strings
import Verif.Model.Completion
/-!
# The model's string functions do what `Spec/Strings.lean` says
-/
namespace Readline
open Spec

theorem occurs_iff {c t : Bytes} : Occurs c t ↔ containsBytes c t = true := by
  unfold Occurs
  induction t with
  | nil => rw [containsBytes, List.infix_nil, List.isEmpty_iff]
  | cons b t ih =>
    rw [containsBytes, Bool.or_eq_true, List.isPrefixOf_iff_prefix, ← ih, List.infix_cons_iff]

theorem position_go (c : Bytes) (t : Bytes) (i : Nat) :
    indexOf c t i = ((List.range (t.length + 1)).find? fun j => c.isPrefixOf (t.drop j)).map (· + i) := by
  induction t generalizing i with
  | nil =>
    rw [indexOf]
    cases c with
    | nil => simp [List.range_succ]
    | cons b c => simp [List.range_succ]
  | cons b t ih =>
    rw [indexOf, List.length_cons, List.range_succ_eq_map (n := t.length + 1), List.find?_cons]
    rw [List.drop_zero]
    by_cases h : c.isPrefixOf (b :: t) = true
    · rw [if_pos h, h]; simp
    · rw [if_neg h, ih]
      have h : c.isPrefixOf (b :: t) = false := by cases hh : c.isPrefixOf (b :: t) with
        | false => rfl
        | true => exact absurd hh h
      rw [h]
      dsimp only
      rw [List.find?_map]
      simp only [Function.comp_def, List.drop_succ_cons, Option.map_map]
      congr 1
      funext j
      simp
      omega

theorem position_eq (c t : Bytes) : indexOf c t 0 = position c t := by
  rw [position_go]
  unfold position
  simp

theorem without_eq (t q : Bytes) : removeQuotes t q = without t q := by
  unfold removeQuotes without encodeRunes
  congr 1
  apply List.filter_congr
  intro r _
  simp

theorem equalFold_eq (U : Uni) (s t : Bytes) : equalFold U s t = sameIgnoringCase U s t := by
  unfold equalFold sameIgnoringCase
  rw [Bool.eq_iff_iff]
  simp

theorem containsAny_eq (t q : Bytes) : containsAny t q = hasOneOf t q := by
  unfold containsAny hasOneOf
  rw [Bool.eq_iff_iff]
  simp

end Readline
