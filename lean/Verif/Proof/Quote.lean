import Verif.Model.Commands
import Verif.Spec.Quote
/-!
# Lemmas about `strings.Replace` and quoting
-/
namespace Readline
open Spec

theorem replaceAllLoop_fuel (old new : Bytes) (ho : old ≠ []) (n m : Nat) (t : Bytes)
    (hn : t.length ≤ n) (hm : t.length ≤ m) :
    replaceAllLoop old new n t = replaceAllLoop old new m t := by
  induction n generalizing t m with
  | zero =>
    cases t with
    | nil => cases m <;> simp [replaceAllLoop]
    | cons b t => simp at hn
  | succ n ih =>
    cases t with
    | nil => cases m <;> simp [replaceAllLoop]
    | cons b t =>
      cases m with
      | zero => simp at hm
      | succ m =>
        simp only [replaceAllLoop]
        have hl : 0 < old.length := List.length_pos_iff.mpr ho
        simp only [List.length_cons] at hn hm
        rw [ih m t (by omega) (by omega),
          ih m ((b :: t).drop old.length) (by simp only [List.length_drop, List.length_cons]; omega)
            (by simp only [List.length_drop, List.length_cons]; omega)]

theorem replaceAll_nil (old new : Bytes) : replaceAll old new [] = [] := rfl

theorem replaceAll_cons (old new : Bytes) (ho : old ≠ []) (b : UInt8) (t : Bytes) :
    replaceAll old new (b :: t) =
      if old.isPrefixOf (b :: t) then new ++ replaceAll old new ((b :: t).drop old.length)
      else b :: replaceAll old new t := by
  unfold replaceAll
  have hl : 0 < old.length := List.length_pos_iff.mpr ho
  rw [List.length_cons, replaceAllLoop]
  rw [replaceAllLoop_fuel old new ho t.length ((b :: t).drop old.length).length _ (by simp; omega) (by simp)]

theorem replaceAll_quotes (t : Bytes) : replaceAll [0x22] [0x22, 0x22] t = doubleQuotes t := by
  induction t with
  | nil => rfl
  | cons b t ih =>
    rw [replaceAll_cons _ _ (by simp)]
    by_cases hb : b = 0x22
    · subst hb
      simp [doubleQuotes, List.isPrefixOf] at ih ⊢
      exact ih
    · have : ¬ ((0x22 : UInt8) = b) := fun h => hb h.symm
      simp [doubleQuotes, hb, List.isPrefixOf, this] at ih ⊢
      exact ih

/-- Replacing CR LF leaves a one-line part alone, also when CR LF follows it. -/
theorem replaceAll_oneLine (new l t : Bytes) (h : OneLine l)
    (ht : l.getLast? = some 0x0D → t.head? ≠ some 0x0A) :
    replaceAll [0x0D, 0x0A] new (l ++ t) = l ++ replaceAll [0x0D, 0x0A] new t := by
  induction l with
  | nil => rfl
  | cons b l ih =>
    rw [List.cons_append, replaceAll_cons _ _ (by simp), if_neg, ih]
    · rfl
    · intro a c e; exact h (b :: a) c (by simp [e])
    · intro hl
      apply ht
      cases l with
      | nil => simp at hl
      | cons x l => simpa [List.getLast?_cons_cons] using hl
    · intro hp
      cases l with
      | nil =>
        cases t with
        | nil => simp [List.isPrefixOf] at hp
        | cons c t =>
          simp [List.isPrefixOf] at hp
          exact ht (by simp [← hp.1]) (by simp [← hp.2])
      | cons c l =>
        simp [List.isPrefixOf] at hp
        exact h [] l (by simp [← hp.1, ← hp.2])

theorem doubleQuotes_append (a b : Bytes) : doubleQuotes (a ++ b) = doubleQuotes a ++ doubleQuotes b := by
  simp [doubleQuotes]

theorem doubleQuotes_last (t : Bytes) : (doubleQuotes t).getLast? = t.getLast? := by
  induction t with
  | nil => rfl
  | cons b t ih =>
    have : doubleQuotes (b :: t) = (if b = 0x22 then [0x22, 0x22] else [b]) ++ doubleQuotes t := by
      simp [doubleQuotes]
    rw [this, List.getLast?_append, ih]
    cases t with
    | nil => split <;> simp_all
    | cons c t => simp [List.getLast?_cons]

theorem doubleQuotes_oneLine {l : Bytes} (h : OneLine l) : OneLine (doubleQuotes l) := by
  induction l with
  | nil =>
    intro a b e
    simp [doubleQuotes] at e
  | cons x l ih =>
    have hl : OneLine l := by intro a c e; exact h (x :: a) c (by simp [e])
    intro a c e
    have hx : doubleQuotes (x :: l) = (if x = 0x22 then [0x22, 0x22] else [x]) ++ doubleQuotes l := by
      simp [doubleQuotes]
    rw [hx] at e
    by_cases hq : x = 0x22
    · subst hq
      match a, e with
      | [], e => simp at e
      | [_], e => simp at e
      | _ :: _ :: a, e =>
        simp at e
        exact ih hl a c (by simp [e.2.2])
    · rw [if_neg hq] at e
      cases a with
      | nil =>
        simp at e
        obtain ⟨rfl, e2⟩ := e
        cases l with
        | nil => simp [doubleQuotes] at e2
        | cons y l =>
          by_cases hy : y = 0x22
          · subst hy; simp [doubleQuotes] at e2
          · simp [doubleQuotes, hy] at e2
            exact h [] l (by simp [e2.1])
      | cons _ a =>
        simp at e
        exact ih hl a c (by simp [e.2])

theorem halve_double (t : Bytes) : halveQuotes (doubleQuotes t) = t := by
  induction t with
  | nil => rfl
  | cons b t ih =>
    by_cases hb : b = 0x22
    · subst hb
      simp [doubleQuotes] at ih ⊢
      rw [halveQuotes, ih]
    · have : doubleQuotes (b :: t) = b :: doubleQuotes t := by simp [doubleQuotes, hb]
      rw [this, halveQuotes, ih]
      intro t' hb' _
      exact hb hb'

theorem unquote_quoteLine (t : Bytes) : unquoteLine (quoteLine t) = t := by
  simp [unquoteLine, quoteLine, halve_double]

theorem joinLines_cons_cons (l l' : Bytes) (ls : List Bytes) :
    joinLines (l :: l' :: ls) = l ++ [0x0D, 0x0A] ++ joinLines (l' :: ls) := rfl

theorem doubleQuotes_joinLines (ls : List Bytes) :
    doubleQuotes (joinLines ls) = joinLines (ls.map doubleQuotes) := by
  induction ls with
  | nil => rfl
  | cons l ls ih =>
    cases ls with
    | nil => rfl
    | cons l' ls =>
      rw [joinLines_cons_cons, doubleQuotes_append, doubleQuotes_append, ih]
      rfl

theorem replaceAll_lines (ls : List Bytes) (hls : ∀ l ∈ ls, OneLine l) (hne : ls ≠ []) :
    0x22 :: replaceAll [0x0D, 0x0A] [0x22, 0x0D, 0x0A, 0x22] (joinLines ls ++ [0x22]) =
      joinLines (ls.map (fun l => [0x22] ++ l ++ [0x22])) := by
  induction ls with
  | nil => simp at hne
  | cons l ls ih =>
    have hl := hls l (by simp)
    cases ls with
    | nil =>
      show 0x22 :: replaceAll _ _ (l ++ [0x22]) = [0x22] ++ l ++ [0x22]
      rw [replaceAll_oneLine _ _ _ hl (by simp)]
      rfl
    | cons l' ls =>
      have ih := ih (fun x hx => hls x (by simp [hx])) (by simp)
      rw [joinLines_cons_cons, List.append_assoc, List.append_assoc,
        replaceAll_oneLine _ _ _ hl (by simp)]
      have : replaceAll [0x0D, 0x0A] [0x22, 0x0D, 0x0A, 0x22]
          ([0x0D, 0x0A] ++ (joinLines (l' :: ls) ++ [0x22])) =
          [0x22, 0x0D, 0x0A] ++ (0x22 :: replaceAll [0x0D, 0x0A] [0x22, 0x0D, 0x0A, 0x22]
            (joinLines (l' :: ls) ++ [0x22])) := by
        show replaceAll _ _ (0x0D :: 0x0A :: (joinLines (l' :: ls) ++ [0x22])) = _
        rw [replaceAll_cons _ _ (by simp)]
        simp [List.isPrefixOf]
      rw [this, ih]
      show _ = ([0x22] ++ l ++ [0x22]) ++ [0x0D, 0x0A] ++ joinLines ((l' :: ls).map _)
      simp

/-- Quoting line by line. -/
theorem quoteText_lines (ls : List Bytes) (hls : ∀ l ∈ ls, OneLine l) (hne : ls ≠ [])
    (hb : 0x20 ∈ joinLines ls) (hq : (joinLines ls).head? ≠ some 0x22) :
    quoteText (joinLines ls) = joinLines (ls.map quoteLine) := by
  unfold quoteText
  have h1 : (joinLines ls).contains 0x20 = true := by simpa using hb
  have h2 : [0x22].isPrefixOf (joinLines ls) = false := by
    cases h : joinLines ls with
    | nil => rfl
    | cons a l =>
      rw [h] at hq
      have : a ≠ 0x22 := by simpa using hq
      simp [List.isPrefixOf]
      exact fun h => this h.symm
  rw [h1, h2]
  simp only [Bool.not_false, Bool.and_self, if_true]
  rw [replaceAll_quotes, doubleQuotes_joinLines, List.append_assoc, List.singleton_append,
    replaceAll_cons _ _ (by simp), if_neg (by simp [List.isPrefixOf]), replaceAll_lines]
  · rw [List.map_map]; rfl
  · intro l hl
    obtain ⟨l', hl', rfl⟩ := List.mem_map.mp hl
    exact doubleQuotes_oneLine (hls l' hl')
  · simpa using hne

/-- Every text is some lines joined with CR LF. -/
theorem exists_lines (t : Bytes) : ∃ ls, ls ≠ [] ∧ (∀ l ∈ ls, OneLine l) ∧ t = joinLines ls := by
  induction h : t.length using Nat.strongRecOn generalizing t with
  | _ n ih =>
    by_cases ho : OneLine t
    · exact ⟨[t], by simp, by simpa using ho, rfl⟩
    · -- take the first CR LF
      have : ∃ a c, t = a ++ [0x0D, 0x0A] ++ c ∧ OneLine a := by
        clear ih h
        induction t with
        | nil => exact absurd (fun a b e => by simp at e) ho
        | cons x t iht =>
          by_cases hx : ∃ c, x :: t = [0x0D, 0x0A] ++ c
          · obtain ⟨c, hc⟩ := hx
            exact ⟨[], c, by simpa using hc, fun a b e => by simp at e⟩
          · have hot : ¬ OneLine t := by
              intro hot
              apply ho
              intro a b e
              cases a with
              | nil => exact hx ⟨b, by simpa using e⟩
              | cons y a => simp at e; exact hot a b (by simp [e.2])
            obtain ⟨a, c, rfl, ha⟩ := iht hot
            refine ⟨x :: a, c, by simp, ?_⟩
            intro a' b' e
            cases a' with
            | nil => simp at e; exact hx ⟨b' ++ [0x0D, 0x0A] ++ c, by simp [e]⟩
            | cons y a' => simp at e; exact ha a' b' (by simp [e.2])
      obtain ⟨a, c, rfl, ha⟩ := this
      obtain ⟨ls, hne, hls, rfl⟩ := ih c.length (by simp at h; omega) c rfl
      obtain ⟨l, ls, rfl⟩ := List.exists_cons_of_ne_nil hne
      refine ⟨a :: l :: ls, by simp, ?_, rfl⟩
      intro x hx
      rcases List.mem_cons.mp hx with rfl | hx
      · exact ha
      · exact hls x hx

end Readline
