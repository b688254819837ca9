import Verif.Spec.Completion
import Verif.Proof.Slice
import Verif.Proof.Strings
/-!
# The completion commands in terms of `Spec.completionOf`
-/
namespace Readline
open Spec

variable {U : Uni} {E : Env} {K : Completer} {post : Bytes} {s : St}

/-- The texts of the units before the cursor. -/
def St.before (s : St) : List Bytes := (s.buf.take s.cursor.toNat).map (fun c => c.moji.write)

/-- Carry out an outcome: the state and the names to show. -/
def Spec.Outcome.run (E : Env) (s : St) : Outcome → M (St × List Bytes)
  | .crash => .error ⟨.bounds, s⟩
  | .nothing => .ok (s, [])
  | .bell l => .ok (s.emit (.lit [0x07]), l)
  | .insert p t => do
    let s ← replaceAndRepaint E s p t
    return (s, [])

theorem removeUnmatches_eq (s : St) (source : Bytes) (full base : List Bytes) :
    removeUnmatches U s source full base =
      if (full.drop base.length).any (beginsWith U source) then .error ⟨.bounds, s⟩
      else .ok (full.filter (beginsWith U source),
        ((full.zip base).filter (fun q => beginsWith U source q.1)).map Prod.snd) := by
  induction full generalizing base with
  | nil => simp [removeUnmatches]
  | cons name full ih =>
    have hm : (name.length ≥ source.length ∧ equalFold U source (name.take source.length) = true) ↔
        beginsWith U source name = true := by simp [beginsWith, equalFold_eq]
    unfold removeUnmatches
    cases base with
    | nil =>
      by_cases h : beginsWith U source name = true
      · rw [if_pos (hm.mpr h)]
        simp [h]
      · rw [if_neg (fun x => h (hm.mp x))]
        have := ih []
        simp only [List.tail_nil, List.length_nil, List.drop_zero, List.zip_nil_right, List.filter_nil,
          List.map_nil] at this ⊢
        rw [this, List.any_cons, List.filter_cons_of_neg h]
        simp [h]
    | cons b0 base =>
      have hi := ih base
      by_cases h : beginsWith U source name = true
      · rw [if_pos (hm.mpr h)]
        simp only [List.tail_cons, List.length_cons, List.drop_succ_cons, List.zip_cons_cons]
        rw [hi, List.filter_cons_of_pos h, List.filter_cons_of_pos (by simpa using h)]
        by_cases hx : (full.drop base.length).any (beginsWith U source) = true
        · rw [if_pos hx, if_pos hx]; rfl
        · rw [if_neg hx, if_neg hx]; rfl
      · rw [if_neg (fun x => h (hm.mp x))]
        simp only [List.tail_cons, List.length_cons, List.drop_succ_cons, List.zip_cons_cons]
        rw [hi, List.filter_cons_of_neg h, List.filter_cons_of_neg (by simpa using h)]

private theorem okBind {α β : Type} (a : α) (f : α → M β) : ((Except.ok a : M α) >>= f) = f a := rfl
private theorem errBind {α β : Type} (e : Panic) (f : α → M β) : ((Except.error e : M α) >>= f) = .error e := rfl

theorem complete_eq (h : s.cursor ≤ s.len) : complete U E K post s = (completionOf U K post s.before).run E s := by
  have hs : split K.enclosures K.delimiters s =
      .ok (splitLoop K.enclosures K.delimiters s.before 0 none [] 0) := by
    unfold split
    rw [if_neg (by omega)]
    rfl
  unfold complete completionOf
  simp only [equalFold_eq, containsAny_eq, hasToInsertQuotation]
  rw [hs, okBind]
  generalize splitLoop K.enclosures K.delimiters s.before 0 none [] 0 = r
  obtain ⟨fields, last⟩ := r
  dsimp only
  unfold completionFor
  cases fields.getLast? with
  | none => rfl
  | some field =>
    dsimp only
    have hb : (if (K.list fields).2.length = 0 then (K.list fields).1 else (K.list fields).2) = baseNames K fields := by
      simp [baseNames, List.length_eq_zero_iff]
    rw [hb, removeUnmatches_eq]
    by_cases hx : ((K.list fields).1.drop (baseNames K fields).length).any (beginsWith U field) = true
    · rw [if_pos hx, if_pos hx]; rfl
    · rw [if_neg hx, if_neg hx, okBind]
      dsimp only
      generalize (K.list fields).1.filter (beginsWith U field) = cands
      cases cands with
      | nil => rfl
      | cons x rest =>
        cases rest with
        | nil =>
          dsimp only
          by_cases h1 : sameIgnoringCase U field x = true
          · rw [if_pos h1, if_pos h1]; rfl
          · rw [if_neg h1, if_neg h1]
            unfold quoted needsQuote Outcome.run
            have : decide (K.delimiters.length > 0) = decide (K.delimiters ≠ []) := by
              cases K.delimiters <;> simp
            cases K.enclosures with
            | nil => rfl
            | cons q qs =>
              dsimp only
              rw [this]
              rfl
        | cons y rest =>
          dsimp only
          cases commonPrefix U (x :: y :: rest) with
          | none => rfl
          | some p =>
            dsimp only
            by_cases h1 : sameIgnoringCase U field p = true
            · rw [if_pos h1, if_pos h1]; rfl
            · rw [if_neg h1, if_neg h1]
              unfold quoted Outcome.run
              cases K.enclosures with
              | nil => rfl
              | cons q qs =>
                dsimp only
                rw [if_neg (c := false = true) (by decide), List.append_nil]
                rfl

theorem complete_beyond (h : ¬ s.cursor ≤ s.len) : complete U E K post s = .error ⟨.bounds, s⟩ := by
  have hs : split K.enclosures K.delimiters s = .error ⟨.bounds, s⟩ := by
    unfold split
    rw [if_pos (by omega)]
  unfold complete
  dsimp only
  rw [hs, errBind]

/-- The completion commands, case by case. -/
def Spec.Outcome.call (E : Env) (box : Option (List Bytes → Bytes)) (s : St) : Outcome → M (St × Result)
  | .crash => .error ⟨.bounds, s⟩
  | .nothing => .ok (s, .cont)
  | .bell l =>
    match box with
    | none => .ok (s.emit (.lit [0x07]), .cont)
    | some box =>
      if l = [] then .ok (s.emit (.lit [0x07]), .cont)
      else do
        let s ← repaintAll E (((s.emit (.lit [0x07])).emit (.lit [0x0A])).emit (.lit (box l)))
        return (s, .cont)
  | .insert p t => do
    let s ← replaceAndRepaint E s p t
    return (s, .cont)

theorem cmdComplete_eq {P : Completing} (h : s.cursor ≤ s.len) :
    cmdComplete E P s = (completionOf P.uni P.completer P.postfix_ s.before).call E P.box s := by
  unfold cmdComplete
  cases hbox : P.box with
  | none =>
    dsimp only
    unfold cmdCompletion
    rw [complete_eq h]
    cases completionOf P.uni P.completer P.postfix_ s.before with
    | insert p t =>
      simp only [Outcome.run, Outcome.call]
      cases replaceAndRepaint E s p t <;> rfl
    | _ => rfl
  | some box =>
    dsimp only
    unfold cmdCompletionOrList
    rw [complete_eq h]
    cases completionOf P.uni P.completer P.postfix_ s.before with
    | insert p t =>
      simp only [Outcome.run, Outcome.call]
      cases replaceAndRepaint E s p t <;> rfl
    | bell l =>
      simp only [Outcome.run, Outcome.call]
      cases l with
      | nil => rfl
      | cons x l => rfl
    | _ => rfl

theorem cmdComplete_beyond {P : Completing} (h : ¬ s.cursor ≤ s.len) : cmdComplete E P s = .error ⟨.bounds, s⟩ := by
  unfold cmdComplete
  cases P.box with
  | none => dsimp only; unfold cmdCompletion; rw [complete_beyond h]; rfl
  | some box => dsimp only; unfold cmdCompletionOrList; rw [complete_beyond h]; rfl

theorem splitLoop_start (q d : Bytes) : ∀ (l : List Bytes) (i : Nat) (m : Option SplitWord) (fs : List Bytes) (last : Nat),
    (∀ w, m = some w → w.start < i) → (fs ≠ [] → last < i) →
    (splitLoop q d l i m fs last).1 ≠ [] → (splitLoop q d l i m fs last).2 < i + l.length
  | [], i, none, fs, last, _, h => by simpa [splitLoop] using h
  | [], i, some w, fs, last, hw, _ => by simpa [splitLoop] using hw w rfl
  | c :: cs, i, m, fs, last, hw, h => by
    have ih : ∀ (m : Option SplitWord) (fs : List Bytes) (last : Nat), (∀ w, m = some w → w.start < i + 1) →
        (fs ≠ [] → last < i + 1) → (splitLoop q d cs (i + 1) m fs last).1 ≠ [] →
        (splitLoop q d cs (i + 1) m fs last).2 < i + (c :: cs).length := by
      intro m fs last h1 h2 h3
      have := splitLoop_start q d cs (i + 1) m fs last h1 h2 h3
      simp only [List.length_cons]
      omega
    have h' : fs ≠ [] → last < i + 1 := fun x => Nat.lt_succ_of_lt (h x)
    have hst : (m.getD { start := i, text := [], bits := 0 }).start < i + 1 := by
      cases m with
      | none => exact Nat.lt_succ_self _
      | some w => exact Nat.lt_succ_of_lt (hw w rfl)
    unfold splitLoop
    split
    · exact ih _ _ _ (by simp) h'
    · dsimp only
      split
      · refine ih _ _ _ ?_ h'
        intro w e; cases e; exact hst
      · split
        · exact ih _ _ _ (by simp) (fun _ => hst)
        · split
          · exact ih _ _ _ (by simp) (fun _ => Nat.lt_succ_self _)
          · refine ih _ _ _ ?_ h'
            intro w e; cases e; exact hst

/-- The units that are replaced stand before the cursor, and there is at least one. -/
theorem completionOf_pos {texts : List Bytes} {pos : Nat} {t : Bytes}
    (h : completionOf U K post texts = .insert pos t) : pos < texts.length := by
  have hs := splitLoop_start K.enclosures K.delimiters texts 0 none [] 0 (by simp) (by simp)
  rw [Nat.zero_add] at hs
  have : ∀ fields start, completionFor U K post fields start = .insert pos t → pos = start ∧ fields ≠ [] := by
    intro fields start h
    unfold completionFor at h
    split at h
    · cases h
    · rename_i hf
      have hne : fields ≠ [] := by rintro rfl; cases hf
      split at h
      · cases h
      · split at h
        · cases h
        · split at h
          · cases h
          · cases h; exact ⟨rfl, hne⟩
        · split at h
          · cases h
          · split at h
            · cases h
            · cases h; exact ⟨rfl, hne⟩
  obtain ⟨e, hf⟩ := this _ _ h
  rw [e]
  exact hs hf

theorem St.before_length (s : St) : s.before.length ≤ s.cursor.toNat := by
  unfold St.before
  rw [List.length_map, List.length_take]
  omega

end Readline
