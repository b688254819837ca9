import Verif.Props.C01
import Verif.Spec.Recall
import Verif.Proof.Jam
/-!
# C08: undo brings back earlier text

The specification (`Spec.Remembers`) keeps a list of the lines of the session, the newest first,
by the rules of `Spec.Snap`: an edit puts the line it changes on the list (browsing the history
also the empty line, a joining code point also the line without the unit it attaches to; a yank
where text was just deleted adds nothing), and Undo takes the first line off the list.

`C08_partial`: in every session of built-in commands whose earlier states were calm, `n` Undos
give the `n`-th line of that list, the list ends with the empty line the editing started from,
and Undos beyond the end of the list change nothing.

`C08_tidy_partial`: if only loose joiners are excluded, an exchange at the end of the line (`Spec.EndSwap`)
takes everything remembered so far off the list for good: what is done after it is undone as before,
and then the next Undo always panics.

`C08_refuted_swap`, `C08_refuted_orphan`: what happens when a state is not calm.
-/
namespace Readline
open Spec

theorem undos_inv {E : Env} {s t : St} {n : Nat} {hs : List (List Moji)} (hb : BuiltinKeys E)
    (h : SInv E s hs) (hu : Undos E s n t) :
    SInv E t (hs.drop n) ∧ (s.line :: hs)[min n hs.length]? = some t.line := by
  induction hu with
  | none => exact ⟨h, by simp⟩
  | resize _ hi hst ih =>
    obtain ⟨h1, h2⟩ := step_resize_inv hb ih.1 hi hst
    rw [h2]
    exact ⟨h1, ih.2⟩
  | @undo n t t' k rest _ hi hk hst ih =>
    obtain ⟨h1, h2⟩ := step_undo_inv hb ih.1 hi hk hst
    rw [List.tail_drop] at h1
    refine ⟨h1, ?_⟩
    rw [h2]
    by_cases hn : n < hs.length
    · rw [Nat.min_eq_left (by omega), List.getElem?_cons_succ, List.getElem?_eq_getElem hn,
        List.drop_eq_getElem_cons hn]
      rfl
    · have h3 := ih.2
      rw [Nat.min_eq_right (by omega)] at h3 ⊢
      rw [List.drop_eq_nil_of_le (by omega)]
      exact h3

theorem remembers_inv {E : Env} {w : World} {s : St} (hb : BuiltinKeys E) (hc : 0 ≤ w.cursor)
    (h : CalmReachable E w s) :
    ∃ hs, SInv E s hs ∧ Remembers E w s (hs.map (·.map Moji.write)) ∧
      (s.line :: hs).getLastD [] = [] := by
  induction h with
  | start h => exact ⟨[[]], start_inv hc h, .start h, rfl⟩
  | @step s s' hr hcalm hst ih =>
    obtain ⟨hs, h1, h2, h3⟩ := ih
    obtain ⟨hs', h1', h4⟩ := step_inv hb h1 hcalm hst
    refine ⟨hs', h1', ?_⟩
    rcases h4 with ⟨n, rest, hi, hl, rfl⟩ | ⟨k, rest, hi, hsn, hne⟩
    · exact ⟨.resize h2 hi hst, by rw [hl]; exact h3⟩
    · refine ⟨.key h2 hi hst ?_, ?_⟩
      · have := hsn.map (f := Moji.write)
        rwa [← St.units_eq, ← St.units_eq] at this
      · rw [hsn.last hne]; exact h3

/-- Undo walks back through the remembered lines and ends at the empty line. -/
theorem C08_partial {E : Env} {w : World} {s : St} (hb : BuiltinKeys E) (hc : 0 ≤ w.cursor)
    (h : CalmReachable E w s) :
    ∃ stk, Remembers E w s stk ∧
      -- `n` Undos bring back the `n`-th remembered line, further ones change nothing
      (∀ n t, Undos E s n t → (s.units :: stk)[min n stk.length]? = some t.units) ∧
      -- the oldest remembered line is the empty one
      (s.units :: stk).getLast? = some [] := by
  obtain ⟨hs, h1, h2, h3⟩ := remembers_inv hb hc h
  refine ⟨_, h2, ?_, ?_⟩
  · intro n t ht
    have := (undos_inv hb h1 ht).2
    rw [St.units_eq, St.units_eq, ← List.map_cons (f := fun l => List.map Moji.write l),
      List.length_map, List.getElem?_map, this]
    rfl
  · rw [List.getLastD_eq_getLast?] at h3
    rw [St.units_eq, ← List.map_cons (f := fun l => List.map Moji.write l), List.getLast?_map]
    cases hl : (s.line :: hs).getLast? with
    | none => simp at hl
    | some x => rw [hl] at h3; simp at h3; rw [h3]; rfl

/-- With Ctrl-T at the end of the line allowed: Undo walks back through the remembered lines, to the
empty line if there was no such exchange, and otherwise to the line the last such exchange left, where
Undo panics. -/
theorem C08_tidy_partial {E : Env} {w : World} {s : St} (hb : BuiltinKeys E) (hc : 0 ≤ w.cursor)
    (h : TidyReachable E w s) :
    ∃ stk stuck, Regains E w s stk stuck ∧
      (∀ n t, Undos E s n t → (s.units :: stk)[min n stk.length]? = some t.units) ∧
      (stuck = false → (s.units :: stk).getLast? = some []) ∧
      (stuck = true → (∀ n t, Undos E s n t → n ≤ stk.length) ∧
        ∀ t k rest, Undos E s stk.length t → t.input = .key k :: rest → lookupCommand E k = .undo →
          ∃ p, step E t = .error p ∧ p.kind = .bounds) := by
  obtain ⟨hs, jam, h1, h2, h3⟩ := tidy_jam hb hc h
  refine ⟨_, jam, h2, ?_, ?_, ?_⟩
  · intro n t ht
    have := (undos_jam hb h1 ht).2.1
    rw [St.units_eq, St.units_eq, ← List.map_cons (f := fun l => List.map Moji.write l),
      List.length_map, List.getElem?_map, this]
    rfl
  · intro hj
    have h3 := h3 hj
    rw [List.getLastD_eq_getLast?] at h3
    rw [St.units_eq, ← List.map_cons (f := fun l => List.map Moji.write l), List.getLast?_map]
    cases hl : (s.line :: hs).getLast? with
    | none => simp at hl
    | some x => rw [hl] at h3; simp at h3; rw [h3]; rfl
  · intro hj
    rw [List.length_map]
    refine ⟨fun n t ht => (undos_jam hb h1 ht).2.2 hj, fun t k rest ht hi hk => ?_⟩
    have := (undos_jam hb h1 ht).1
    rw [List.drop_length, hj] at this
    exact this.panics hi hk

/-- On a terminal without joined characters every session without SwapChar is calm. -/
theorem C08_plain_partial {E : Env} {w : World} {s : St} (hb : BuiltinKeys E) (hc : 0 ≤ w.cursor)
    (hz : E.cfg.zwjOk = false) (hv : E.cfg.varOk = false) (hm : E.cfg.modOk = false)
    (hsw : ∀ k, .key k ∈ w.input → lookupCommand E k ≠ .swapChar) (h : Reachable E w s) :
    ∃ stk, Remembers E w s stk ∧
      (∀ n t, Undos E s n t → (s.units :: stk)[min n stk.length]? = some t.units) ∧
      (s.units :: stk).getLast? = some [] :=
  C08_partial hb hc (CalmReachable.of_reachable (calm_plain hb hz hv hm hsw) h)

section
open Example

/-- Typing, killing, yanking and undoing: the kill and the yank are undone together. -/
example :
    let w : World := { clip := some [], input := keys ["a", "b", "\x15", "\x19", "c", "\x1a", "\x1a", "\x1a"] }
    [look (after (env plain) w 5), look (after (env plain) w 6), look (after (env plain) w 7),
     look (after (env plain) w 8)] =
    [.inr ([[97], [98], [99]], 3, 0), .inr ([[97], [98]], 2, 0), .inr ([[97], [98]], 2, 0),
     .inr ([[97]], 1, 0)] := by decide +kernel

/-- "ab", Ctrl-T, "cd", three Undos: back to "ba" and no further. -/
example :
    let w : World := { input := keys ["a", "b", "\x14", "c", "d", "\x1a", "\x1a", "\x1a"] }
    [look (after (env plain) w 5), look (after (env plain) w 6), look (after (env plain) w 7),
     look (after (env plain) w 8)] =
    [.inr ([[98], [97], [99], [100]], 4, 0), .inr ([[98], [97], [99]], 3, 0), .inr ([[98], [97]], 2, 0), .inl .bounds] := by
  decide +kernel

/-- After Ctrl-T at the end of the line Undo does not bring "ab" back but panics. -/
theorem C08_refuted_swap :
    look (after (env plain) { input := keys ["a", "b", "\x14"] } 3) = .inr ([[98], [97]], 2, 0) ∧
    look (after (env plain) { input := keys ["a", "b", "\x14", "\x1a"] } 4) = .inl .bounds := by
  decide +kernel

/-- ZERO WIDTH JOINER, Home, X, End, Ctrl-U, Undo: two units were killed, one comes back. -/
theorem C08_refuted_orphan :
    look (after (env full) { input := keys ["‍", "\x01", "X", "\x05", "\x15", "\x1a"] } 4) =
      .inr ([b "X", b "‍"], 2, 0) ∧
    look (after (env full) { input := keys ["‍", "\x01", "X", "\x05", "\x15", "\x1a"] } 6) =
      .inr ([b "X‍�"], 1, 0) := by
  decide +kernel

end
end Readline
