import Verif.Proof.RefineCall
/-!
# ReadLine refines a session without a screen
-/
namespace Readline

/-- The error belonging to the way a command ends the editing. -/
def Spec.endError : Result → RLErr
  | .enter => .nil
  | .intr => .ctrlC
  | _ => .eof

theorem finish_ed {E : Env} {s : St} {rc : Result} {p : St × RLRes}
    (h : finish E s rc = .ok p) :
    p.1.ed = { s.ed with suffix := none } ∧ p.2 = { text := s.text, err := Spec.endError rc } := by
  unfold finish at h
  obtain ⟨s1, h1, h⟩ := bind_ok.mp h
  have e1 : s1.ed = { s.ed with suffix := none } := by
    split at h1
    · exact (repaintNoSuffix_same h1).1.ed
    · rename_i hs
      simp only [pure_ok] at h1
      subst h1
      simp only [St.ed, hs]
  have t1 : s1.text = s.text := by
    have : s1.ed.text = s.ed.text := by rw [e1]; rfl
    rw [St.text_eq, St.text_eq]; exact this
  simp only [pure_ok] at h
  subst h
  refine ⟨?_, ?_⟩
  · rw [← e1]
    cases E.lineFeed <;> rfl
  · rw [← t1]
    cases E.lineFeed <;> cases rc <;> rfl

theorem execCmd_ed {E : Env} {c : Cmd} (hb : c.builtin = true) {s : St} {p : St × Option RLRes}
    (h : execCmd E c s = .ok p) :
    ((Ed.call E.logic c s.ed).2 = .cont → p.2 = none ∧
      (p.1.ed = (Ed.call E.logic c s.ed).1 ∨
        (c = .forwardWord ∧ p.1.ed = Ed.predict E.logic (Ed.call E.logic c s.ed).1))) ∧
    ((Ed.call E.logic c s.ed).2 ≠ .cont →
      p.2 = some { text := (Ed.call E.logic c s.ed).1.text,
                   err := Spec.endError (Ed.call E.logic c s.ed).2 } ∧
      p.1.ed = { (Ed.call E.logic c s.ed).1 with suffix := none }) := by
  unfold execCmd at h
  obtain ⟨⟨s1, rc⟩, h1, h⟩ := bind_ok.mp h
  obtain ⟨he, hr⟩ := call_ed hb h1
  rw [emit_ed] at he hr
  simp only at he hr
  constructor
  · intro hc
    rw [hc] at hr
    subst hr
    simp only [pure_ok] at h
    subst h
    exact ⟨rfl, he⟩
  · intro hc
    rw [← hr] at hc
    have hfw : c ≠ .forwardWord := by
      intro h; subst h; exact hc hr
    have he : s1.ed = (Ed.call E.logic c s.ed).1 := by
      rcases he with he | ⟨h, _⟩
      · exact he
      · exact absurd h hfw
    have : ∃ q, finish E (s1.emit .cursorOn) rc = .ok q ∧ p = (q.1, some q.2) := by
      cases rc with
      | cont => exact absurd rfl hc
      | _ =>
        obtain ⟨q, hq, h⟩ := bind_ok.mp h
        simp only [pure_ok] at h
        exact ⟨q, hq, h.symm⟩
    obtain ⟨q, hq, rfl⟩ := this
    obtain ⟨f1, f2⟩ := finish_ed hq
    refine ⟨?_, ?_⟩
    · simp only
      rw [f2, ← hr, ← he]
      congr 2
      show s1.text = _
      rw [St.text_eq]; rfl
    · rw [f1]
      show { s1.ed with suffix := none } = _
      rw [he]

theorem onResize_ed {E : Env} {s s' : St} {w : Int} (h : onResize E s w = .ok s') :
    s'.ed = Ed.predict E.logic s.ed := by
  have := repaintLastLine_ed h
  rw [this]; rfl

theorem step_resize_ed {E : Env} {s : St} {w : Int} {rest : List Ev} {p : St × Option RLRes}
    (hi : s.input = .resize w :: rest) (h : step E s = .ok p) :
    p.2 = none ∧ p.1.ed = Ed.predict E.logic { s.ed with input := rest } := by
  unfold step at h
  rw [hi] at h
  obtain ⟨s1, h1, h⟩ := bind_ok.mp h
  simp only [pure_ok] at h
  subst h
  exact ⟨rfl, onResize_ed h1⟩

theorem step_key {E : Env} {s : St} {k : Bytes} {rest : List Ev}
    (hi : s.input = .key k :: rest) :
    step E s = execCmd E (lookupCommand E k) { s.emit .await with input := rest } := by
  unfold step
  rw [hi]

theorem step_key_ed {E : Env} {s : St} {k : Bytes} {rest : List Ev} {p : St × Option RLRes}
    (hi : s.input = .key k :: rest) {c : Cmd} (hc : lookupCommand E k = c) (hb : c.builtin = true)
    (h : step E s = .ok p) :
    ((Ed.call E.logic c { s.ed with input := rest }).2 = .cont → p.2 = none ∧
      (p.1.ed = (Ed.call E.logic c { s.ed with input := rest }).1 ∨
        (c = .forwardWord ∧
          p.1.ed = Ed.predict E.logic (Ed.call E.logic c { s.ed with input := rest }).1))) ∧
    ((Ed.call E.logic c { s.ed with input := rest }).2 ≠ .cont →
      p.2 = some { text := (Ed.call E.logic c { s.ed with input := rest }).1.text,
                   err := Spec.endError (Ed.call E.logic c { s.ed with input := rest }).2 } ∧
      p.1.ed = { (Ed.call E.logic c { s.ed with input := rest }).1 with suffix := none }) := by
  rw [step_key hi, hc] at h
  exact execCmd_ed hb h

/-- The state without a screen when the loop is entered. -/
def Ed.start (L : Logic) (w : World) : Ed :=
  let l := segs L.cfg L.default
  predict L
    { line := l
      cursor := if w.cursor > l.length then l.length else w.cursor
      suffix := none
      histPtr := histLen L
      undoes := [{ pos := 0, del := l.length, text := [] }]
      pending := []
      modHist := fun _ => none
      clip := w.clip
      input := w.input }

theorem promptSt_ed (E : Env) (w : World) : (promptSt E w).ed =
    { line := [], cursor := w.cursor, suffix := none, histPtr := E.histLen, undoes := [],
      pending := [], modHist := fun _ => none, clip := w.clip, input := w.input } := by
  unfold promptSt callPromptWriter
  cases E.prompt <;> cases E.promptErr <;> simp only <;> (try split) <;> rfl

theorem startSt_ed {E : Env} {w : World} {s : St} (h : startSt E w = .ok s) :
    s.ed = Ed.start E.logic w ∧ 0 ≤ s.cursor := by
  unfold startSt at h
  obtain ⟨⟨s1, ins⟩, h1, h⟩ := bind_ok.mp h
  obtain ⟨s2, h2, h⟩ := bind_ok.mp h
  simp only [pure_ok] at h
  subst h
  have e1 := (insertString_ok h1).2.1
  simp only at e1
  unfold repaintAfterPrompt at h2
  have hr := repaint_same h2
  have e2 := repaint_ed h2
  rw [promptSt_ed] at e1
  have e2' : s2.ed = Ed.start E.logic w := by
    rw [e2, resetViewStart_ed]
    unfold Ed.start
    simp only
    congr 1
    have hlen : s1.len = (segs E.cfg E.default).length := by
      rw [← ed_len, e1]; simp [Ed.len, Ed.insert, Env.logic]
    have hcur : s1.cursor = w.cursor := congrArg Ed.cursor e1
    rw [hlen, hcur]
    split
    · rename_i hc
      rw [if_pos (by exact hc)]
      show { s1.ed with cursor := (((segs E.cfg E.default).length : Nat) : Int) } = _
      rw [e1]
      simp [Ed.insert, Env.logic, Env.histLen, Ed.histLen]
    · rename_i hc
      rw [if_neg (by exact hc), e1]
      simp [Ed.insert, Env.logic, Env.histLen, Ed.histLen]
  refine ⟨e2', ?_⟩
  have h3 := hr.2
  obtain ⟨_, b, o, he⟩ := hr.1
  have : s2.cursor = (if s1.cursor > s1.len then { s1 with cursor := s1.len } else s1).cursor := by
    rw [he]
    have hu : ∀ t : St, (updateSuffix E t).cursor = t.cursor := by
      intro t
      unfold updateSuffix
      split
      · rfl
      · split <;> rfl
    show (updateSuffix E _).cursor = _
    rw [hu]
    rfl
  have h4 : 0 ≤ (if s1.cursor > s1.len then { s1 with cursor := s1.len } else s1).cursor := by
    have h5 := h3.1
    have h6 := h3.2.1
    have : (resetViewStart E (if s1.cursor > s1.len then { s1 with cursor := s1.len } else s1)).cursor
      = (if s1.cursor > s1.len then { s1 with cursor := s1.len } else s1).cursor := rfl
    rw [this] at h6
    omega
  show 0 ≤ s2.cursor
  omega

/-- `loop` stops at the first step with a result. -/
theorem loop_steps {E : Env} {n : Nat} {s : St} {p : St × RLRes} (h : loop E n s = .ok p) :
    ∃ q, step E s = .ok q ∧
      ((∃ r, q.2 = some r ∧ p = (q.1, r)) ∨ (∃ m, n = m + 1 ∧ q.2 = none ∧ loop E m q.1 = .ok p)) := by
  cases n with
  | zero => cases h
  | succ n =>
    rw [loop] at h
    obtain ⟨⟨s1, o⟩, h1, h⟩ := bind_ok.mp h
    refine ⟨_, h1, ?_⟩
    cases o with
    | none => exact Or.inr ⟨n, rfl, rfl, h⟩
    | some r =>
      simp only [pure_ok] at h
      exact Or.inl ⟨r, rfl, h.symm⟩

/-- Every result comes from a step of a reachable state. -/
theorem loop_reachable {E : Env} {w : World} {n : Nat} {s : St} {p : St × RLRes}
    (hs : Reachable E w s) (h : loop E n s = .ok p) :
    ∃ t, Reachable E w t ∧ step E t = .ok (p.1, some p.2) := by
  induction n generalizing s with
  | zero => cases h
  | succ n ih =>
    obtain ⟨q, hq, h⟩ := loop_steps h
    rcases h with ⟨r, hr, rfl⟩ | ⟨m, hm, hn, h⟩
    · exact ⟨s, hs, by rw [hq, ← hr]⟩
    · have : m = n := by omega
      rw [this] at h
      exact ih (Reachable.step hs (by rw [hq, ← hn])) h

theorem readLine_reachable {E : Env} {w : World} {p : St × RLRes} (h : readLine E w = .ok p) :
    ∃ t, Reachable E w t ∧ step E t = .ok (p.1, some p.2) := by
  unfold readLine at h
  obtain ⟨s, h1, h⟩ := bind_ok.mp h
  exact loop_reachable (Reachable.start h1) h

end Readline
