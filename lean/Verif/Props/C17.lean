import Verif.Props.C16
/-!
# C17: edits of history entries survive browsing

`Spec.Browsed` keeps, along a session, the units every position of the history was left with.
`C17_partial`: whenever Up or Down goes to a position, exactly these units are shown, provided that
whenever a position was left earlier

* no unit but the first started with an attaching code point (`Tidy`),
* an entry that had been left with another text was not left with the text of the history entry
  again: `C17_refuted_restored` shows that the editor then brings back the first edit,
* an edited oldest entry was not left by Up with `HistoryCycling`: `C17_refuted_cycling` shows that
  the edit is lost.

`C17_exact` says for every session what is shown: the text the position was last left with, not counting
the times when it was left with the text of the history entry, and, with `HistoryCycling`, when Up went from
the oldest entry to the new line.

The History object is only read in the model, as in the code (`Len`, `At`).
-/
namespace Readline
open Spec

/-- The position of `s` may be left. -/
structure Spec.Keeps (E : Env) (s s' : St) (left : Int → List Bytes) : Prop where
  tidy : Tidy E.cfg s
  restored : s.histPtr < E.history.length → s.text = entry E s.histPtr →
    left s.histPtr = unitsOf E.cfg (entry E s.histPtr)
  /-- wrapping around from the oldest entry -/
  cycling : s.histPtr = 0 → s'.histPtr = E.history.length →
    (∃ k rest, s.input = .key k :: rest ∧ lookupCommand E k = .previousHistory) → s.units = left s.histPtr

/-- The session has reached `s`, and the positions of the history were left with the units `left`
(those never left: the entry). -/
inductive Spec.Browsed (E : Env) (w : World) : St → (Int → List Bytes) → Prop where
  | start {s} : startSt E w = .ok s → Browsed E w s (fun p => unitsOf E.cfg (entry E p))
  | stay {s s' left} : Browsed E w s left → step E s = .ok (s', none) → s'.histPtr = s.histPtr →
      Browsed E w s' left
  | leave {s s' left} : Browsed E w s left → step E s = .ok (s', none) → s'.histPtr ≠ s.histPtr →
      Keeps E s s' left → Browsed E w s' (fun p => if p = s.histPtr then s.units else left p)

theorem Spec.Browsed.reachable {E : Env} {w : World} {s : St} {left : Int → List Bytes}
    (h : Browsed E w s left) : Reachable E w s := by
  induction h with
  | start h => exact .start h
  | stay _ h _ ih => exact .step ih h
  | leave _ h _ _ ih => exact .step ih h

theorem unitsOf_text {C : Cfg} {s : St} (hb : ∀ m ∈ s.line, Built C m) (ht : Tidy C s) :
    unitsOf C s.text = s.units := by
  have h := tailTidy_of hb ht
  have := segs_slice hb h 0 s.line.length
  simp at this
  rw [← segs_units, St.text_eq, this, St.units_eq]

/-- What Up and Down remember about the position they leave. -/
theorem saveHist_shown {L : Logic} (e : Ed) :
    (Ed.saveHist L e).modHist e.histPtr = some e.text ∨
    (e.histPtr < Ed.histLen L ∧ Ed.histAt L e.histPtr = e.text ∧ (Ed.saveHist L e).modHist = e.modHist) := by
  unfold Ed.saveHist
  split
  · rename_i h; exact Or.inr ⟨h.1, h.2, rfl⟩
  · left; simp

/-- A step that goes to another position is an Up or a Down. -/
theorem step_browse {E : Env} {s s' : St} (hb : BuiltinKeys E) (h : step E s = .ok (s', none))
    (hp : s'.histPtr ≠ s.histPtr) (h0 : 0 ≤ s.histPtr) (h1 : s.histPtr ≤ E.history.length) :
    (∃ k rest, s.input = .key k :: rest ∧ goes E (lookupCommand E k) s.histPtr = some s'.histPtr ∧
      (s'.modHist = (Ed.saveHist E.logic s.ed).modHist ∨
       (s.histPtr = 0 ∧ s'.histPtr = E.history.length ∧ lookupCommand E k = .previousHistory ∧
        ∀ p : Int, p ≤ E.history.length → s'.modHist p = s.modHist p))) ∧
    At s' (unitsOf E.cfg (shown E s s'.histPtr)) [] := by
  obtain ⟨k, rest, hi, hk⟩ := C16_only hb h hp
  have ho := (step_obs hb hi h).1
  have hg : ∃ p, goes E (lookupCommand E k) s.histPtr = some p := by
    rcases hk with hk | hk <;> rw [hk] <;> exact ⟨_, rfl⟩
  obtain ⟨p, hg⟩ := hg
  rcases Ed.browse_spec (e := { s.ed with input := rest }) h0 h1 hg with ⟨-, he⟩ | ⟨hpn, e1, he1, he⟩
  · rw [he] at ho
    exact absurd ho.histPtr hp
  · rw [he] at ho
    have hpp : s'.histPtr = p := by rw [ho.histPtr, (Ed.showHist_histPtr _ _).1]
    have hpn : p ≠ s.histPtr := hpn
    have hmod : s'.modHist = e1.modHist := by rw [ho.modHist, (Ed.showHist_histPtr _ _).2]
    have hm : ∀ q, q ≠ s.histPtr → q ≤ E.history.length → e1.modHist q = s.modHist q := by
      intro q hq hql
      rcases he1 with ⟨rfl, -⟩ | ⟨-, -, hpl, rfl⟩
      · exact Ed.saveHist_modHist (e := { s.ed with input := rest }) hq
      · exact Ed.saveHist_modHist (e := { s.ed with input := rest, histPtr := E.history.length + 1 })
          (by show q ≠ (E.history.length : Int) + 1; omega)
    have hple : p ≤ E.history.length := by
      have h5 := Ed.call_histOk E.logic (lookupCommand E k) { s.ed with input := rest } h0 h1
      rw [he, (Ed.showHist_histPtr _ _).1] at h5
      exact h5.2
    refine ⟨⟨k, rest, hi, by rw [hpp]; exact hg, ?_⟩, ?_⟩
    · rw [hmod]
      rcases he1 with ⟨rfl, -⟩ | ⟨hc, hz, hpl, rfl⟩
      · left
        unfold Ed.saveHist
        dsimp only
        split <;> split <;> first | rfl | (exfalso; rename_i h1 h2; exact h2 h1) | (exfalso; rename_i h1 h2; exact h1 h2)
      · right
        refine ⟨hz, by rw [hpp]; exact hpl, hc, ?_⟩
        intro q hq
        exact Ed.saveHist_modHist (e := { s.ed with input := rest, histPtr := E.history.length + 1 })
          (by show q ≠ (E.history.length : Int) + 1; omega)
    · have hl := Ed.showHist_line (L := E.logic) (e := { e1 with histPtr := p })
      have hat := ho.at (l := segs E.logic.cfg (Ed.getHist E.logic { e1 with histPtr := p })) (r := [])
        ⟨by rw [hl.1]; simp, hl.2⟩
      rw [segs_units] at hat
      have hsh : Ed.getHist E.logic { e1 with histPtr := p } = shown E s p := by
        rw [Ed.getHist_eq]
        unfold shown entry
        dsimp only
        rw [hm p hpn hple]
        rfl
      rw [hsh] at hat
      rw [hpp]
      exact hat

/-- What is shown at each position is what it was left with. -/
theorem browsed_inv {E : Env} {w : World} {s : St} {left : Int → List Bytes} (hb : BuiltinKeys E)
    (h : Browsed E w s left) :
    ∀ p : Int, 0 ≤ p → p ≤ E.history.length → unitsOf E.cfg (shown E s p) = left p := by
  induction h with
  | start h =>
    intro p _ _
    have : (_ : St).modHist = _ := (Obs.of_ed (startSt_ed h).1).modHist
    unfold shown
    rw [this]
    simp [Ed.start]
  | @stay s s' left hbr h hp ih =>
    intro p h0 h1
    rw [← ih p h0 h1]
    unfold shown
    have hr := C16_range hb hbr.reachable
    rcases step_cases h with ⟨n, rest, hi⟩ | ⟨k, rest, hi⟩
    · rw [(resize_obs hi h).modHist]; rfl
    · have ho := (step_obs hb hi h).1
      cases hg : goes E (lookupCommand E k) s.histPtr with
      | none =>
        have h2 : lookupCommand E k ≠ .previousHistory := by intro hx; rw [hx] at hg; cases hg
        have h3 : lookupCommand E k ≠ .nextHistory := by intro hx; rw [hx] at hg; cases hg
        rw [ho.modHist, (Ed.call_hist E.logic _ _ h2 h3).2]
        rfl
      | some q =>
        rcases Ed.browse_spec (e := { s.ed with input := rest }) hr.1 hr.2 hg with ⟨-, he⟩ | ⟨hpn, e1, he1, he⟩
        · rw [he] at ho
          rw [ho.modHist]
          rfl
        · rw [he] at ho
          exfalso
          apply hpn
          have := ho.histPtr
          rw [(Ed.showHist_histPtr _ _).1] at this
          exact this.symm.trans hp
  | @leave s s' left hbr h hp hk ih =>
    intro p h0 h1
    have hr := C16_range hb hbr.reachable
    have hbuilt := reachable_built hb hbr.reachable
    obtain ⟨⟨k, rest, hi, hg, hm⟩, -⟩ := step_browse hb h hp hr.1 hr.2
    by_cases hps : p = s.histPtr
    · dsimp only; rw [if_pos hps, hps]
      unfold shown
      rcases hm with hm | ⟨hz, hlen, hc, hm⟩
      · rw [hm]
        rcases saveHist_shown (L := E.logic) s.ed with h2 | ⟨h2, h3, h4⟩
        · have h2' : (Ed.saveHist E.logic s.ed).modHist s.histPtr = some s.text := by
            rw [St.text_eq]; exact h2
          rw [h2']
          exact unitsOf_text hbuilt hk.tidy
        · rw [h4]
          have h2' : s.histPtr < E.history.length := h2
          have h3' : s.text = entry E s.histPtr := by
            rw [St.text_eq]
            refine Eq.trans h3.symm ?_
            unfold Ed.histAt entry
            rw [if_pos hr.1, List.getD_eq_getElem?_getD]
            rfl
          have := ih s.histPtr hr.1 hr.2
          rw [hk.restored h2' h3', ← h3', unitsOf_text hbuilt hk.tidy] at this
          exact this
      · rw [hm s.histPtr hr.2]
        rw [hk.cycling hz hlen ⟨k, rest, hi, hc⟩]
        exact ih s.histPtr hr.1 hr.2
    · dsimp only; rw [if_neg hps, ← ih p h0 h1]
      unfold shown
      rcases hm with hm | ⟨hz, hlen, hc, hm⟩
      · rw [hm]
        have := Ed.saveHist_modHist (L := E.logic) (e := s.ed) hps
        rw [this]
        rfl
      · rw [hm p h1]

theorem C17_partial {E : Env} {w : World} {s s' : St} {left : Int → List Bytes} (hb : BuiltinKeys E)
    (h : Browsed E w s left) (hst : step E s = .ok (s', none)) (hp : s'.histPtr ≠ s.histPtr) :
    At s' (left s'.histPtr) [] := by
  have hr := C16_range hb h.reachable
  have hr' := C16_range hb (.step h.reachable hst)
  rw [← browsed_inv hb h s'.histPtr hr'.1 hr'.2]
  exact (step_browse hb hst hp hr.1 hr.2).2

/-- The editor pays no attention to the text the position of `s` is left with. -/
def Spec.PassedOver (E : Env) (s s' : St) : Prop :=
  (s.histPtr < E.history.length ∧ s.text = entry E s.histPtr) ∨
  (s.histPtr = 0 ∧ s'.histPtr = E.history.length ∧ ∃ k rest, s.input = .key k :: rest ∧ lookupCommand E k = .previousHistory)

/-- The session has reached `s`, and `kept` are the texts the positions of the history were last left with,
not counting the times that are passed over. -/
inductive Spec.Stores (E : Env) (w : World) : St → (Int → Bytes) → Prop where
  | start {s} : startSt E w = .ok s → Stores E w s (entry E)
  | stay {s s' kept} : Stores E w s kept → step E s = .ok (s', none) → s'.histPtr = s.histPtr → Stores E w s' kept
  | pass {s s' kept} : Stores E w s kept → step E s = .ok (s', none) → s'.histPtr ≠ s.histPtr → PassedOver E s s' →
      Stores E w s' kept
  | leave {s s' kept} : Stores E w s kept → step E s = .ok (s', none) → s'.histPtr ≠ s.histPtr → ¬ PassedOver E s s' →
      Stores E w s' (fun p => if p = s.histPtr then s.text else kept p)

theorem Spec.Stores.reachable {E : Env} {w : World} {s : St} {kept : Int → Bytes} (h : Stores E w s kept) : Reachable E w s := by
  induction h with
  | start h => exact .start h
  | stay _ h _ ih => exact .step ih h
  | pass _ h _ _ ih => exact .step ih h
  | leave _ h _ _ ih => exact .step ih h

/-- Every state has such texts. -/
theorem stores_exists {E : Env} {w : World} {s : St} (h : Reachable E w s) : ∃ kept, Stores E w s kept := by
  induction h with
  | start h => exact ⟨_, .start h⟩
  | @step s s' _ hst ih =>
    obtain ⟨kept, ih⟩ := ih
    by_cases hp : s'.histPtr = s.histPtr
    · exact ⟨_, .stay ih hst hp⟩
    · by_cases ho : PassedOver E s s'
      · exact ⟨_, .pass ih hst hp ho⟩
      · exact ⟨_, .leave ih hst hp ho⟩

theorem stay_shown {E : Env} {w : World} {s s' : St} (hb : BuiltinKeys E) (hr : Reachable E w s) (h : step E s = .ok (s', none))
    (hp : s'.histPtr = s.histPtr) (p : Int) : shown E s' p = shown E s p := by
  unfold shown
  have hr := C16_range hb hr
  rcases step_cases h with ⟨n, rest, hi⟩ | ⟨k, rest, hi⟩
  · rw [(resize_obs hi h).modHist]; rfl
  · have ho := (step_obs hb hi h).1
    cases hg : goes E (lookupCommand E k) s.histPtr with
    | none =>
      have h2 : lookupCommand E k ≠ .previousHistory := by intro hx; rw [hx] at hg; cases hg
      have h3 : lookupCommand E k ≠ .nextHistory := by intro hx; rw [hx] at hg; cases hg
      rw [ho.modHist, (Ed.call_hist E.logic _ _ h2 h3).2]
      rfl
    | some q =>
      rcases Ed.browse_spec (e := { s.ed with input := rest }) hr.1 hr.2 hg with ⟨-, he⟩ | ⟨hpn, e1, he1, he⟩
      · rw [he] at ho
        rw [ho.modHist]
        rfl
      · rw [he] at ho
        exfalso
        apply hpn
        have := ho.histPtr
        rw [(Ed.showHist_histPtr _ _).1] at this
        exact this.symm.trans hp

open Classical in
theorem stores_inv {E : Env} {w : World} {s : St} {kept : Int → Bytes} (hb : BuiltinKeys E) (h : Stores E w s kept) :
    ∀ p : Int, 0 ≤ p → p ≤ E.history.length → shown E s p = kept p := by
  have moved : ∀ {s s' : St}, Reachable E w s → step E s = .ok (s', none) → s'.histPtr ≠ s.histPtr →
      ∀ p : Int, p ≤ E.history.length → shown E s' p =
        (if p = s.histPtr ∧ ¬ PassedOver E s s' then s.text else shown E s p) := by
    intro s s' hre h hp p h1
    have hr := C16_range hb hre
    obtain ⟨⟨k, rest, hi, hg, hm⟩, -⟩ := step_browse hb h hp hr.1 hr.2
    have hh : ∀ t, Ed.histAt E.logic s.ed.histPtr = t ↔ entry E s.histPtr = t := by
      intro t
      unfold Ed.histAt entry
      rw [if_pos hr.1, List.getD_eq_getElem?_getD]
      exact Iff.rfl
    by_cases hps : p = s.histPtr
    · subst hps
      by_cases ho : PassedOver E s s'
      · rw [if_neg (fun h => h.2 ho)]
        unfold shown
        rcases hm with hm | ⟨hz, hlen, hc, hm⟩
        · rcases ho with ho | ⟨hz, hlen, k', rest', hi', hc⟩
          · rw [hm]
            have : (Ed.saveHist E.logic s.ed).modHist = s.modHist := by
              unfold Ed.saveHist
              rw [if_pos ⟨ho.1, (hh _).mpr (by rw [← ho.2, St.text_eq]; rfl)⟩]
              rfl
            rw [this]
          · rw [hi] at hi'
            cases hi'
            have ho := (step_obs hb hi h).1
            rcases Ed.browse_spec (e := { s.ed with input := rest }) hr.1 hr.2 hg with ⟨hx, -⟩ | ⟨hpn, e1, he1, he⟩
            · exact absurd hx hp
            · rw [he] at ho
              have hmod : s'.modHist = e1.modHist := by rw [ho.modHist, (Ed.showHist_histPtr _ _).2]
              rcases he1 with ⟨rfl, hno⟩ | ⟨-, -, -, rfl⟩
              · exfalso
                have := hno hc
                have hz : s.ed.histPtr = 0 := hz
                dsimp only at this
                omega
              · rw [hmod, Ed.saveHist_modHist (e := { s.ed with input := rest, histPtr := E.history.length + 1 })
                  (by show s.histPtr ≠ (E.history.length : Int) + 1; omega)]
                rfl
        · rw [hm s.histPtr hr.2]
      · rw [if_pos ⟨rfl, ho⟩]
        unfold shown
        rcases hm with hm | ⟨hz, hlen, hc, hm⟩
        · rw [hm]
          rcases saveHist_shown (L := E.logic) s.ed with h2 | ⟨h2, h3, h4⟩
          · have h2' : (Ed.saveHist E.logic s.ed).modHist s.histPtr = some s.text := by
              rw [St.text_eq]; exact h2
            rw [h2']
            rfl
          · exact absurd (Or.inl ⟨h2, by rw [St.text_eq]; exact ((hh _).mp h3).symm⟩) ho
        · exact absurd (Or.inr ⟨hz, hlen, k, rest, hi, hc⟩) ho
    · rw [if_neg (fun h => hps h.1)]
      unfold shown
      rcases hm with hm | ⟨hz, hlen, hc, hm⟩
      · rw [hm]
        have := Ed.saveHist_modHist (L := E.logic) (e := s.ed) hps
        rw [this]
        rfl
      · rw [hm p h1]
  induction h with
  | start h =>
    intro p _ _
    have : (_ : St).modHist = _ := (Obs.of_ed (startSt_ed h).1).modHist
    unfold shown
    rw [this]
    simp [Ed.start]
  | stay hbr h hp ih =>
    intro p h0 h1
    rw [stay_shown hb hbr.reachable h hp, ih p h0 h1]
  | pass hbr h hp ho ih =>
    intro p h0 h1
    rw [moved hbr.reachable h hp p h1, if_neg (fun h => h.2 ho), ih p h0 h1]
  | @leave s s' kept hbr h hp ho ih =>
    intro p h0 h1
    dsimp only
    rw [moved hbr.reachable h hp p h1]
    by_cases hps : p = s.histPtr
    · rw [if_pos ⟨hps, ho⟩, if_pos hps]
    · rw [if_neg (fun h => hps h.1), if_neg hps, ih p h0 h1]

/-- What is shown at the position a key goes to, in every session. -/
theorem C17_exact {E : Env} {w : World} {s s' : St} {kept : Int → Bytes} (hb : BuiltinKeys E)
    (h : Stores E w s kept) (hst : step E s = .ok (s', none)) (hp : s'.histPtr ≠ s.histPtr) :
    At s' (unitsOf E.cfg (kept s'.histPtr)) [] := by
  have hr := C16_range hb h.reachable
  have hr' := C16_range hb (.step h.reachable hst)
  rw [← stores_inv hb h s'.histPtr hr'.1 hr'.2]
  exact (step_browse hb hst hp hr.1 hr.2).2

section
open Example
/-- The new line and an entry are edited, left and shown again. -/
example :
    let E : Env := { env plain with history := [b "one", b "あ"] }
    let go (ks : List String) (n : Nat) := look (after E { input := keys (["x", "\x10", "い", "\x10", "y"] ++ ks) } (n + 5))
    [go [] 0, go ["\x0e"] 1, go ["\x0e", "\x0e"] 2, go ["\x0e", "\x0e", "\x10", "\x10"] 4] =
    [.inr ([b "o", b "n", b "e", b "y"], 4, 0), .inr ([b "あ", b "い"], 2, 0), .inr ([b "x"], 1, 0),
     .inr ([b "o", b "n", b "e", b "y"], 4, 0)] := by decide +kernel

/-- An edit that was taken back comes back: the entry `a` is edited to `ab`, left, shown again,
Backspace makes it `a`, it is left and shown again: `ab`. -/
theorem C17_refuted_restored :
    let E : Env := { env plain with history := [b "a"] }
    let w : World := { input := keys ["\x10", "b", "\x0e", "\x10", "\x08", "\x0e", "\x10"] }
    look (after E w 5) = .inr ([b "a"], 1, 0) ∧ look (after E w 7) = .inr ([b "a", b "b"], 2, 0) := by
  decide +kernel

/-- The two sessions of the refutations are covered by `C17_exact`: what is passed over is the `a` in the first and the
`ab` in the second. -/
example :
    let E : Env := { env plain with history := [b "a"] }
    let w : World := { input := keys ["\x10", "b", "\x0e", "\x10", "\x08", "\x0e", "\x10"] }
    let at' (n : Nat) : Option (Int × Bytes) := match after E w n with
      | .ok s => some (s.histPtr, s.text)
      | .error _ => none
    [at' 5, at' 6, at' 7] = [some (0, b "a"), some (1, []), some (0, b "ab")] := by decide +kernel

/-- With `HistoryCycling`, an edit of the oldest entry is lost when Up wraps around. -/
theorem C17_refuted_cycling :
    let E : Env := { env plain with history := [b "a"], historyCycling := true }
    let w : World := { input := keys ["\x10", "b", "\x10", "\x10"] }
    look (after E w 2) = .inr ([b "a", b "b"], 2, 0) ∧ look (after E w 3) = .inr ([], 0, 0) ∧
    look (after E w 4) = .inr ([b "a"], 1, 0) := by decide +kernel
end
end Readline
