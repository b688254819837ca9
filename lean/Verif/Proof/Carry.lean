import Verif.Spec.Carry
import Verif.Proof.Split
/-!
# A command is carried out
-/
namespace Readline
open Spec

/-- The parts of the state that depend neither on the screen nor on the keys to come. -/
structure Leads (s' : St) (e : Ed) : Prop where
  line : s'.line = e.line
  cursor : s'.cursor = e.cursor
  undoes : s'.undoes = e.undoes
  clip : s'.clip = e.clip
  pending : s'.pending = e.pending
  histPtr : s'.histPtr = e.histPtr
  modHist : s'.modHist = e.modHist

theorem Obs.leads {s : St} {e : Ed} (h : Obs s e) : Leads s e :=
  ⟨h.line, h.cursor, h.undoes, h.clip, h.pending, h.histPtr, h.modHist⟩

theorem Leads.units {s' : St} {e : Ed} (h : Leads s' e) : s'.units = e.line.map Moji.write := by
  rw [St.units_eq, h.line]

theorem Leads.at {s : St} {e : Ed} {l r : List Moji} (ho : Leads s e) (h : e.At l r) :
    Spec.At s (l.map Moji.write) (r.map Moji.write) := by
  refine ⟨?_, ?_⟩
  · rw [ho.units, h.line, List.map_append]
  · rw [ho.cursor, h.cursor, List.length_map]

/-- The state in which other keys are waiting and something else is predicted. -/
def St.but (s : St) (i : List Ev) (x : Option (List Moji)) : St := { s with input := i, suffix := x }

theorem Leads.but {s : St} {e : Ed} (h : Leads s e) (i : List Ev) (x : Option (List Moji)) : Leads (s.but i x) e :=
  ⟨h.line, h.cursor, h.undoes, h.clip, h.pending, h.histPtr, h.modHist⟩

theorem Spec.At.but {s : St} {l r : List Bytes} (h : At s l r) (i : List Ev) (x : Option (List Moji)) : At (s.but i x) l r :=
  ⟨h.units, h.cursor⟩

/-- What a carried out command leaves. -/
theorem Spec.Performs.leads {E : Env} {c : Cmd} {s s' : St} {rc : Result} (h : Performs E c s s' rc)
    (hb : c.builtin = true) : ∃ i x, Leads s' (Ed.call E.logic c (s.but i x).ed).1 ∧
      rc = (Ed.call E.logic c (s.but i x).ed).2 := by
  induction h with
  | @call s s' rc h => exact ⟨s.input, s.suffix, (call_obs hb h).1.leads, (call_obs hb h).2⟩
  | @key s s' k rest hi hk h =>
    refine ⟨rest, s.suffix, ?_⟩
    obtain ⟨h1, h2⟩ := step_key_ed hi hk hb h
    by_cases hx : (Ed.call E.logic c { s.ed with input := rest }).2 = .cont
    · refine ⟨?_, hx.symm⟩
      rcases (h1 hx).2 with he | ⟨-, he⟩
      · exact (Obs.of_ed he).leads
      · exact (Obs.of_predict he).leads
    · cases (h2 hx).1
  | @last s s' k rest r rc hi hk h hr =>
    refine ⟨rest, s.suffix, ?_⟩
    obtain ⟨h1, h2⟩ := step_key_ed hi hk hb h
    by_cases hx : (Ed.call E.logic c { s.ed with input := rest }).2 = .cont
    · cases (h1 hx).1
    · obtain ⟨g1, g2⟩ := h2 hx
      have he := Obs.of_ed g2
      refine ⟨⟨he.line, he.cursor, he.undoes, he.clip, he.pending, he.histPtr, he.modHist⟩, ?_⟩
      have hr' : r.err = endError (Ed.call E.logic c { s.ed with input := rest }).2 := by
        injection g1 with g1
        rw [g1]
      show rc = (Ed.call E.logic c { s.ed with input := rest }).2
      generalize (Ed.call E.logic c { s.ed with input := rest }).2 = q at *
      rw [hr'] at hr
      cases q with
      | cont => exact absurd rfl hx
      | enter => cases hr; rfl
      | abort => cases hr; rfl
      | intr => cases hr; rfl
  | @resize s s1 s' n rest rc hi h _ ih =>
    obtain ⟨i, x, h1, h2⟩ := ih
    refine ⟨i, x, ?_⟩
    have he : (s1.but i x).ed = (s.but i x).ed := by
      have := (step_resize_ed hi h).2
      show { s1.ed with input := i, suffix := x } = { s.ed with input := i, suffix := x }
      rw [this]
      unfold Ed.predict
      split
      · rfl
      · split <;> rfl
    rw [he] at h1 h2
    exact ⟨h1, h2⟩

end Readline
