import Verif.Model.Tiny
import Verif.Spec.Fields
import Verif.Proof.Trim
/-!
# The words of a text
-/
namespace Readline
open Spec

/-- The loop on characters. -/
def fieldsChars : List Char → Option (List Char) → List (List Char)
  | [], cur => cur.toList
  | c :: cs, cur => if White c then cur.toList ++ fieldsChars cs none else fieldsChars cs (some (cur.getD [] ++ [c]))

theorem utf8_append' (a b : List Char) : utf8 (a ++ b) = utf8 a ++ utf8 b := by simp [utf8]

theorem fieldsLoop_chars (cs : List Char) : ∀ (n : Nat) (cur : Option (List Char)), (utf8 cs).length ≤ n →
    fieldsLoop n (utf8 cs) (cur.map utf8) = (fieldsChars cs cur).map utf8 := by
  induction cs with
  | nil =>
    intro n cur _
    have h0 : utf8 [] = [] := rfl
    cases n <;> cases cur <;> simp [fieldsLoop, fieldsChars, h0]
  | cons c cs ih =>
    intro n cur hn
    have hne := utf8_one_ne c
    have hlen : 0 < (utf8 [c]).length := List.length_pos_iff.mpr hne
    rw [utf8_more, List.length_append] at hn
    obtain ⟨m, rfl⟩ : ∃ m, n = m + 1 := ⟨n - 1, by omega⟩
    rw [utf8_more, fieldsLoop, if_neg (by simp [hne])]
    dsimp only
    rw [decode_front]
    dsimp only
    rw [List.drop_left' rfl, List.take_left' rfl, fieldsChars]
    by_cases hw : White c
    · rw [if_pos ((isSpaceRune_iff c).mpr hw), if_pos hw, List.map_append]
      have := ih m none (by omega)
      rw [Option.map_none] at this
      rw [this]
      cases cur <;> rfl
    · rw [if_neg (fun h => hw ((isSpaceRune_iff c).mp h)), if_neg hw]
      have := ih m (some (cur.getD [] ++ [c])) (by omega)
      rw [Option.map_some, utf8_append'] at this
      rw [← this]
      cases cur <;> rfl

theorem fieldsChars_blank {a : List Char} (ha : ∀ c ∈ a, White c) (t : List Char) : fieldsChars (a ++ t) none = fieldsChars t none := by
  induction a with
  | nil => rfl
  | cons c a ih =>
    rw [List.cons_append, fieldsChars, if_pos (ha c (by simp)), ih fun c hc => ha c (by simp [hc])]
    rfl

theorem fieldsChars_word {w : List Char} (hw : ∀ c ∈ w, ¬ White c) (t : List Char) (x : List Char) :
    fieldsChars (w ++ t) (some x) = fieldsChars t (some (x ++ w)) := by
  induction w generalizing x with
  | nil => simp
  | cons c w ih =>
    rw [List.cons_append, fieldsChars, if_neg (hw c (by simp)), ih fun c hc => hw c (by simp [hc])]
    simp

theorem fieldsChars_eq {t : List Char} {ws : List (List Char)} (h : Spec.Fields t ws) : fieldsChars t none = ws := by
  induction h with
  | @none z h =>
    have := fieldsChars_blank h []
    rw [List.append_nil] at this
    rw [this]
    rfl
  | @word a w t ws ha hne hw ht h ih =>
    rw [List.append_assoc, fieldsChars_blank ha]
    cases w with
    | nil => exact absurd rfl hne
    | cons c w =>
      rw [List.cons_append, fieldsChars, if_neg (hw c (by simp))]
      rw [fieldsChars_word (fun c hc => hw c (by simp [hc]))]
      show fieldsChars t (some (c :: w)) = _
      cases t with
      | nil =>
        have ih : [] = ws := ih
        rw [← ih]
        rfl
      | cons d t =>
        have hd := ht d rfl
        rw [fieldsChars, if_pos hd]
        rw [fieldsChars, if_pos hd] at ih
        have ih : fieldsChars t none = ws := ih
        rw [ih]
        rfl

theorem fields_exist (t : List Char) : ∃ ws, Spec.Fields t ws := by
  induction h : t.length using Nat.strongRecOn generalizing t with
  | ind n ih =>
    have e1 := List.takeWhile_append_dropWhile (p := fun c => decide (White c)) (l := t)
    have h1 : ∀ c ∈ t.takeWhile (fun c => decide (White c)), White c := fun c hc => by
      have := List.all_takeWhile (p := fun c => decide (White c)) (l := t)
      rw [List.all_eq_true] at this
      exact of_decide_eq_true (this c hc)
    generalize ht1 : t.takeWhile (fun c => decide (White c)) = a at *
    generalize ht2 : t.dropWhile (fun c => decide (White c)) = u at *
    have e2 := List.takeWhile_append_dropWhile (p := fun c => !decide (White c)) (l := u)
    have h2 : ∀ c ∈ u.takeWhile (fun c => !decide (White c)), ¬ White c := fun c hc => by
      have := List.all_takeWhile (p := fun c => !decide (White c)) (l := u)
      rw [List.all_eq_true] at this
      simpa using this c hc
    have h3 : ∀ c, (u.dropWhile (fun c => !decide (White c))).head? = some c → White c := fun c hc => by
      have := List.head?_dropWhile_not (fun c => !decide (White c)) u
      rw [hc] at this
      simpa using this
    cases hu : u with
    | nil =>
      refine ⟨[], ?_⟩
      rw [← e1, hu, List.append_nil]
      exact .none h1
    | cons d u' =>
      have hd : ¬ White d := by
        have := List.head?_dropWhile_not (fun c => decide (White c)) t
        rw [ht2, hu] at this
        simpa using this
      have hne : u.takeWhile (fun c => !decide (White c)) ≠ [] := by
        rw [hu, List.takeWhile_cons, if_pos (by simpa using hd)]
        simp
      have hl : (u.dropWhile (fun c => !decide (White c))).length < n := by
        have l1 := congrArg List.length e1
        have l2 := congrArg List.length e2
        have := List.length_pos_iff.mpr hne
        rw [List.length_append] at l1 l2
        omega
      obtain ⟨ws, hws⟩ := ih _ hl _ rfl
      refine ⟨u.takeWhile (fun c => !decide (White c)) :: ws, ?_⟩
      rw [← e1]
      conv => lhs; rw [← e2]
      rw [← List.append_assoc]
      exact .word h1 hne h2 h3 hws

end Readline
