import Verif.Proof.Textbook6
import Verif.Proof.Merge
/-!
# Every page of the textbook is a state of the call
-/
namespace Readline
open Spec

variable {E : Env} {w : World} {D : Desk} {t : List Char} {n : Nat} {clip : Option (List Char)} {ks : List (List Char)}

theorem upcoming_awaits {evs : List Ev} {k : List Char} {r : List (List Char)} (h : Upcoming evs (k :: r)) : noResize evs ≠ [] := by
  have h1 := h.keys
  have h2 := h.quiet
  clear h
  induction evs with
  | nil => cases h1
  | cons ev evs ih =>
    cases ev with
    | err x => exact absurd (by simp) (h2 x)
    | key q => intro hx; cases hx
    | resize v => exact ih h1 fun x hx => h2 x (by simp [hx])

theorem awaits_upcoming {evs : List Ev} {r : List (List Char)} (h : Upcoming evs r) (hn : noResize evs ≠ []) : r ≠ [] := by
  rintro rfl
  have h1 := h.keys
  have h2 := h.quiet
  clear h
  induction evs with
  | nil => exact hn rfl
  | cons ev evs ih =>
    cases ev with
    | err x => exact absurd (by simp) (h2 x)
    | key q => cases h1
    | resize v => exact ih hn h1 fun x hx => h2 x (by simp [hx])

/-! ## There is one way through a call -/

/-- The state after some steps. -/
def trail (E : Env) (w : World) : Nat → Option St
  | 0 => match startSt E w with
    | .ok s => some s
    | .error _ => none
  | n + 1 => match trail E w n with
    | some s => match step E s with
      | .ok (s', none) => some s'
      | _ => none
    | none => none

theorem reachable_trail {s : St} (h : Reachable E w s) : ∃ n, trail E w n = some s := by
  induction h with
  | start hs => exact ⟨0, by rw [trail, hs]⟩
  | step _ hst ih =>
    obtain ⟨n, hn⟩ := ih
    exact ⟨n + 1, by rw [trail, hn]; dsimp only; rw [hst]⟩

theorem trail_stuck {n : Nat} {s : St} {e : Panic} (h : trail E w n = some s) (he : step E s = .error e) (m : Nat) :
    trail E w (n + 1 + m) = none := by
  induction m with
  | zero => show trail E w (n + 1) = none; rw [trail, h]; dsimp only; rw [he]
  | succ m ih => show trail E w (n + 1 + m + 1) = none; rw [trail, ih]

/-- There is one state at which a call fails. -/
theorem stuck_unique {s s' : St} {e e' : Panic} (h : Reachable E w s) (he : step E s = .error e) (h' : Reachable E w s')
    (he' : step E s' = .error e') : s = s' := by
  obtain ⟨n, hn⟩ := reachable_trail h
  obtain ⟨m, hm⟩ := reachable_trail h'
  rcases Nat.lt_trichotomy n m with hl | rfl | hl
  · obtain ⟨k, rfl⟩ := Nat.exists_eq_add_of_lt hl
    have := trail_stuck hn he k
    rw [show n + 1 + k = n + k + 1 by omega, hm] at this
    cases this
  · rw [hn] at hm; cases hm; rfl
  · obtain ⟨k, rfl⟩ := Nat.exists_eq_add_of_lt hl
    have := trail_stuck hm he' k
    rw [show m + 1 + k = m + k + 1 by omega, hn] at this
    cases this

theorem utf8_keys {r r' : List (List Char)} (h : r.map utf8 = r'.map utf8) : r = r' := by
  induction r generalizing r' with
  | nil => cases r' with
    | nil => rfl
    | cons => cases h
  | cons k r ih => cases r' with
    | nil => cases h
    | cons k' r' =>
      obtain ⟨h1, h2⟩ := List.cons.inj h
      rw [utf8_injective h1, ih h2]

theorem turn_shorter {p q : Page} {k : List Char} {r r' : List (List Char)} (h : turn D p k r = .inl (q, r')) : r'.length < (k :: r).length := by
  have := (turn_suffix h).length_le
  rw [List.length_cons]
  omega

/-- The page after some turns. -/
def leaf (D : Desk) (p : Page) (ks : List (List Char)) : Nat → Option (Page × List (List Char))
  | 0 => some (p, ks)
  | n + 1 => match leaf D p ks n with
    | some (q, k :: r) => match turn D q k r with
      | .inl x => some x
      | .inr _ => none
    | _ => none

theorem turned_leaf {p0 p : Page} {r : List (List Char)} (h : Turned D p0 ks p r) : ∃ n, leaf D p0 ks n = some (p, r) := by
  induction h with
  | start => exact ⟨0, rfl⟩
  | turn _ h2 ih =>
    obtain ⟨n, hn⟩ := ih
    exact ⟨n + 1, by rw [leaf, hn]; dsimp only; rw [h2]⟩

theorem leaf_shorter {p0 p q : Page} {r r' : List (List Char)} {n : Nat} (h : leaf D p0 ks n = some (p, r)) (m : Nat)
    (h' : leaf D p0 ks (n + 1 + m) = some (q, r')) : r'.length < r.length := by
  have one : ∀ {n : Nat} {p q : Page} {r r' : List (List Char)}, leaf D p0 ks n = some (p, r) → leaf D p0 ks (n + 1) = some (q, r') →
      r'.length < r.length := by
    intro n p q r r' h h'
    rw [leaf, h] at h'
    cases r with
    | nil => cases h'
    | cons k r =>
      dsimp only at h'
      split at h'
      · rename_i x hx; cases h'; exact turn_shorter hx
      · cases h'
  induction m generalizing q r' with
  | zero => exact one h h'
  | succ m ih =>
    cases hm : leaf D p0 ks (n + 1 + m) with
    | none => rw [show n + 1 + (m + 1) = n + 1 + m + 1 by omega, leaf, hm] at h'; cases h'
    | some x =>
      obtain ⟨a, b⟩ := x
      have := ih hm
      have := one hm h'
      omega

/-- There is one page with so many keys to come. -/
theorem turned_unique {p0 p q : Page} {r : List (List Char)} (h : Turned D p0 ks p r) (h' : Turned D p0 ks q r) : p = q := by
  obtain ⟨n, hn⟩ := turned_leaf h
  obtain ⟨m, hm⟩ := turned_leaf h'
  rcases Nat.lt_trichotomy n m with hl | rfl | hl
  · obtain ⟨k, rfl⟩ := Nat.exists_eq_add_of_lt hl
    exact absurd (leaf_shorter hn k (by rw [show n + 1 + k = n + k + 1 by omega]; exact hm)) (Nat.lt_irrefl _)
  · rw [hn] at hm; cases hm; rfl
  · obtain ⟨k, rfl⟩ := Nat.exists_eq_add_of_lt hl
    exact absurd (leaf_shorter hm k (by rw [show m + 1 + k = m + k + 1 by omega]; exact hn)) (Nat.lt_irrefl _)

/-- The call fails only where the textbook does. -/
def FailsThere (E : Env) (w : World) (D : Desk) (p : Page) (ks : List (List Char)) : Prop :=
  (∃ s, startSt E w = .ok s) ∧ ∀ s x, Reachable E w s → step E s = .error x → ∃ q k r, Turned D p ks q (k :: r) ∧
    Upcoming s.input (k :: r) ∧ turn D q k r = .inr .crashed ∧ ∃ kb rest, s.input = .key kb :: rest

theorem fails_there {P : Nat → Prop} (h : Setting E w D t n clip ks) (hcm : ∀ q K, lookupCommand E q ≠ .completion K)
    (hm : Modest P E w) : FailsThere E w D (opening D t n clip) ks := by
  constructor
  · cases hs : startSt E w with
    | ok s => exact ⟨s, rfl⟩
    | error x =>
      have hrl : readLine E w = .error x := by unfold readLine; rw [hs]; rfl
      obtain ⟨s, -, -, -, hr, -⟩ := failure_turn h hcm hm hrl
      have : ∀ {s : St}, Reachable E w s → False := by
        intro s hr
        induction hr with
        | start h' => rw [hs] at h'; cases h'
        | step _ _ ih => exact ih
      exact (this hr).elim
  · intro s x hr hst
    obtain ⟨s', q, k, r, hr', hst', h1, h2, h3⟩ := failure_turn h hcm hm ((readLine_of_step h.builtin hr hst).2 x rfl)
    obtain rfl := stuck_unique hr hst hr' hst'
    exact ⟨q, k, r, h1, h2, h3⟩

/-- The changes of the width before a key. -/
theorem reach_key (h : Setting E w D t n clip ks) (hok : FailsThere E w D (opening D t n clip) ks) {p : Page} {k : List Char}
    {r : List (List Char)} :
    ∀ (m : Nat) {s : St}, s.input.length = m → Reachable E w s → Portrays E.logic s.ed p → Upcoming s.input (k :: r) →
    ∃ s1 kb rest, Reachable E w s1 ∧ Portrays E.logic s1.ed p ∧ Upcoming s1.input (k :: r) ∧ s1.input = .key kb :: rest := by
  intro m
  induction m with
  | zero =>
    intro s hm _ _ hu
    have := hu.keys
    rw [List.length_eq_zero_iff.mp hm] at this
    cases this
  | succ m ih =>
    intro s hm hr hd hu
    cases hi : s.input with
    | nil => rw [hi] at hm; cases hm
    | cons ev rest =>
      cases ev with
      | err x => exact absurd (show Ev.err x ∈ s.input by rw [hi]; simp) (hu.quiet x)
      | key kb => exact ⟨s, kb, rest, hr, hd, hu, hi⟩
      | resize v =>
        cases hst : step E s with
        | error e =>
          obtain ⟨-, -, -, -, -, -, kb, rest', h1⟩ := hok.2 s e hr hst
          rw [hi] at h1
          cases h1
        | ok y =>
          obtain ⟨s', o⟩ := y
          obtain ⟨h0, h1⟩ := step_resize_ed hi hst
          subst h0
          rw [hi] at hu
          have hin : s'.input = rest := by
            show s'.ed.input = rest
            rw [h1, predict_input]
          refine ih ?_ (.step hr hst) ?_ ?_
          · rw [hi] at hm; rw [hin]; simpa using hm
          · rw [h1]; exact (hd.input rest).predict
          · rw [hin]; exact ⟨hu.keys, fun x hx => hu.quiet x (by simp [hx]), hu.full⟩

/-- **Every page** of the textbook is portrayed by a state of the call. -/
theorem turned_reached (h : Setting E w D t n clip ks) (hok : FailsThere E w D (opening D t n clip) ks) {p : Page}
    {r : List (List Char)} (ht : Turned D (opening D t n clip) ks p r) :
    ∃ s, Reachable E w s ∧ Portrays E.logic s.ed p ∧ Upcoming s.input r := by
  induction ht with
  | start =>
    obtain ⟨s, hs⟩ := hok.1
    refine ⟨s, .start hs, opening_drawn h hs, ?_⟩
    rw [startSt_input hs]
    exact ⟨h.keys, h.noErr, h.full⟩
  | @turn q q' k r r' ht htn ih =>
    obtain ⟨s0, hr0, hd0, hu0⟩ := ih
    obtain ⟨s, kb, rest, hr, hd, hu, hi⟩ := reach_key h hok _ rfl hr0 hd0 hu0
    obtain ⟨k', r'', he, hkm, rfl, c1, c2⟩ := drawn_turn h hr ht hd hu hi
    cases he
    obtain ⟨l1, l2, l3⟩ := c1 q' r' htn
    cases hst : step E s with
    | error e =>
      obtain ⟨q2, k2, r2, h1, h2, h3, -⟩ := hok.2 s e hr hst
      have he := utf8_keys (h2.keys.symm.trans hu.keys)
      cases he
      obtain rfl := turned_unique h1 ht
      rw [htn] at h3
      cases h3
    | ok y =>
      obtain ⟨s', o⟩ := y
      obtain ⟨h1, h2⟩ := step_key_ed hi rfl (BuiltinKeys.builtin h.builtin _) hst
      obtain ⟨h3, h4⟩ := h1 l1
      subst h3
      refine ⟨s', .step hr hst, ?_⟩
      rcases h4 with h3 | ⟨-, h3⟩
      · exact ⟨by rw [h3]; exact l2, by show Upcoming s'.ed.input r'; rw [h3]; exact l3⟩
      · exact ⟨by rw [h3]; exact l2.predict, by show Upcoming s'.ed.input r'; rw [h3, predict_input]; exact l3⟩

end Readline
