import Verif.Proof.Schedule
import Verif.Proof.Statements
import Verif.Spec.Alone
/-!
# Earlier calls and the present call
-/
namespace Readline
open Spec

variable {may : Env → Prop} {C : Cut} {joins early : Bool} {E : Env} {w : World}

theorem Spec.Alone.step {rs : List RLRes} {g g' : G (C.code E)} {E₀ : Env} (h : Alone C joins early may E₀ w rs E g)
    (ha : ∀ k, g.wa ≠ .crashed k) (hs : Step (C.code E) joins early g g') : Alone C joins early may E₀ w rs E g' := by
  cases h with
  | first h => exact .first (h.step ha hs)
  | next hm h hr hw h2 => exact .next hm h hr hw (h2.step ha hs)

theorem Spec.Alone.here {rs : List RLRes} {g : G (C.code E)} {E₀ : Env} (h : Alone C joins early may E₀ w rs E g) :
    ∃ w', Steps (C.code E) joins early (G.init _ E w') g := by
  cases h with
  | first h => exact ⟨_, h⟩
  | next hm h hr hw h2 => exact ⟨_, h2⟩

/-- A call that has returned a result does not hold the mutex, unless its watcher does. -/
theorem returned_lock {K : Code} {g : G K} (h : Steps K joins early (G.init K E w) g) {r : RLRes}
    (hr : g.ed = .returned (.ok r)) (hw : ∀ k, g.wa ≠ .crashed k) :
    g.lock = none ∨ g.lock = some .watcher ∧ ((∃ r, g.wa = .running r) ∨ g.wa = .unlocking) := by
  have hh := held_steps h
  cases hl : g.lock with
  | none => exact .inl rfl
  | some x =>
    cases x with
    | editor =>
      rcases hh.editor hl with ⟨l, h1⟩ | ⟨o, h1⟩ | h1
      · rw [h1] at hr; cases hr
      · rw [h1] at hr; cases hr
      · rw [hr] at h1; exact h1.elim
    | watcher =>
      rcases hh.watcher hl with h1 | h1 | ⟨k, h1⟩
      · exact .inr ⟨rfl, .inl h1⟩
      · exact .inr ⟨rfl, .inr h1⟩
      · exact (hw k h1).elim

/-! ## tty10 -/

theorem prog_alone {p : Prog C} (h : ProgSteps C true early may (Prog.init C E w) p) :
    Alone C true early may E w p.results p.E p.g ∧ ∀ x ∈ p.late, PastIt x.pc := by
  induction h with
  | refl => exact ⟨.first .refl, fun x hx => by cases hx⟩
  | @step p1 p2 h1 hc h2 ih =>
    obtain ⟨ih1, ih2⟩ := ih
    have hw : ∀ k, p1.g.wa ≠ .crashed k := fun k hk => hc (.inl ⟨k, hk⟩)
    have over : ∀ {a x b}, p1.late = a ++ x :: b → PastIt x.pc := fun {a x b} he =>
      ih2 x (by rw [he]; simp)
    cases h2 with
    | now hs => exact ⟨ih1.step hw hs, ih2⟩
    | @next r E' hE' hr =>
      obtain ⟨w', hs⟩ := ih1.here
      have ht := told_steps hs hr
      have hl : p1.g.lock = none := by
        rcases returned_lock hs hr hw with h | ⟨-, ⟨r, h⟩ | h⟩
        · exact h
        · rw [h] at ht; rcases ht with ht | ht <;> cases ht
        · rw [h] at ht; rcases ht with ht | ht <;> cases ht
      refine ⟨?_, ?_⟩
      · have : (p1.again r E').g = G.init (C.code E') E' p1.g.mem.world.leave := by
          unfold Prog.again
          dsimp only
          rw [hl]
          rfl
        show Alone C true early may E w (p1.results ++ [r]) E' (p1.again r E').g
        rw [this]
        exact .next hE' ih1 hr hw .refl
      · intro x hx
        rcases List.mem_append.mp hx with hx | hx
        · exact ih2 x hx
        · rw [List.mem_singleton.mp hx]
          rcases ht with ht | ht <;> rw [ht] <;> trivial
    | tick w' he hp => have := over he; rw [hp] at this; exact this.elim
    | lock he hp _ => have := over he; rw [hp] at this; exact this.elim
    | more he hp _ => have := over he; rw [hp] at this; exact this.elim
    | done he hp _ => have := over he; rw [hp] at this; exact this.elim
    | fail he hp _ => have := over he; rw [hp] at this; exact this.elim
    | unlock he hp => have := over he; rw [hp] at this; exact this.elim
    | stop he hp =>
      refine ⟨ih1, ?_⟩
      intro x hx
      rcases List.mem_append.mp hx with hx | hx
      · exact ih2 x (by rw [he]; exact List.mem_append_left _ hx)
      · rcases List.mem_cons.mp hx with rfl | hx
        · trivial
        · exact ih2 x (by rw [he]; exact List.mem_append_right _ (List.mem_cons_of_mem _ hx))
    | closed hj => cases hj

/-! ## tty8 -/

/-- The code of the editor does not look at what was written, and the callback leaves `Cursor` alone. -/
structure Spec.Deaf (C : Cut) (E : Env) : Prop where
  start : ∃ mid : C.A → Prop, mid (C.begin E) ∧ ∀ a, mid a → OutBlind (C.start E a) ∧
    ∀ s s' a', C.start E a s = .ok (s', .inl a') → mid a'
  body (l : C.L) : OutBlind (C.body E l)
  back (r : C.R) : OutBlind (C.back E r)
  gentle {r : C.R} {s s' : St} {x : C.R ⊕ Unit} : C.back E r s = .ok (s', x) → s'.cursor = s.cursor

theorem sameButOut_refl (s : St) : SameButOut s s := rfl

theorem sameButOut_emit {s t : St} (h : SameButOut s t) (k k' : Tok) : SameButOut (s.emit k) (t.emit k') := h

theorem sameButOut_wrote (s : St) (p : List Tok) : SameButOut (s.wrote p) s := rfl

theorem sameButOut_input {s t : St} (h : SameButOut s t) : s.input = t.input := (congrArg St.input h : _)

theorem wrote_out (s : St) : s = ({ s with out := [] } : St).wrote s.out := by
  simp [St.wrote, St.io]

theorem blind_same {f : St → M (St × α)} (hf : OutBlind f) {m n : St} (h : SameButOut m n) :
    (∀ a, f n = .ok a → ∃ t, f m = .ok (t, a.2) ∧ SameButOut t a.1) ∧
    (∀ e, f n = .error e → ∃ e', f m = .error e' ∧ e'.kind = e.kind ∧ SameButOut e'.st e.st) := by
  have hm : f m = wroteAll m.out (f { n with out := [] }) := by
    conv => lhs; rw [wrote_out m]
    rw [hf, h]
  have hn : f n = wroteAll n.out (f { n with out := [] }) := by
    conv => lhs; rw [wrote_out n]
    rw [hf]
  rw [hm, hn]
  cases f { n with out := [] } with
  | ok b =>
    refine ⟨fun a ha => ?_, fun e he => (by cases he)⟩
    injection ha with ha
    subst ha
    exact ⟨_, rfl, rfl⟩
  | error e =>
    refine ⟨fun a ha => (by cases ha), fun e' he => ?_⟩
    injection he with he
    subst he
    exact ⟨_, rfl, rfl, rfl⟩

/-- The start code is where it can be. -/
def Mid {K : Code} (mid : K.A → Prop) : EdPc K → Prop
  | .starting a => mid a
  | _ => True

/-- The mutex, with and without the `n` goroutines of earlier calls that are in it. -/
def LockRel (n : Nat) (l l' : Option Who) : Prop := n = 0 ∧ l = l' ∨ n = 1 ∧ l = none ∧ l' = some .watcher

theorem LockRel.free {n : Nat} {l l' : Option Who} (h : LockRel n l l') (hl : l' = none) : n = 0 ∧ l = none := by
  rcases h with ⟨h1, h2⟩ | ⟨-, -, h3⟩
  · exact ⟨h1, h2.trans hl⟩
  · rw [hl] at h3; cases h3

theorem LockRel.held {n : Nat} {l l' : Option Who} (h : LockRel n l l') (hl : l ≠ none) : n = 0 ∧ l = l' := by
  rcases h with h | ⟨-, h2, -⟩
  · exact h
  · exact (hl h2).elim

theorem sim_step {mid : C.A → Prop} (hmid : mid (C.begin E) ∧ ∀ a, mid a → OutBlind (C.start E a) ∧
      ∀ s s' a', C.start E a s = .ok (s', .inl a') → mid a')
    (hbody : ∀ l, OutBlind (C.body E l)) (hback : ∀ r, OutBlind (C.back E r))
    {g g' : G (C.code E)} {m : St} {l : Option Who} {n : Nat} (hx : Excl { g with mem := m, lock := l })
    (hm : SameButOut m g.mem) (hl : LockRel n l g.lock) (hs : Mid (K := C.code E) mid g.ed)
    (h : Step (C.code E) joins early g g') :
    ∃ m' l', Step (C.code E) joins early { g with mem := m, lock := l } { g' with mem := m', lock := l' } ∧
      SameButOut m' g'.mem ∧ LockRel n l' g'.lock ∧ Mid (K := C.code E) mid g'.ed := by
  cases h with
  | size w' h => exact ⟨m, l, .size w' h, hm, hl, trivial⟩
  | @assign v h =>
    exact ⟨_, l, .assign h, by unfold SameButOut at hm ⊢; exact congrArg (fun s : St => { s with termWidth := v }) hm, hl, hmid.1⟩
  | @startMore a a' s h h2 =>
    rw [h] at hs
    obtain ⟨h3, h4⟩ := hmid.2 a hs
    obtain ⟨t, h5, h6⟩ := (blind_same h3 hm).1 _ h2
    exact ⟨t, l, .startMore h h5, h6, hl, h4 _ _ _ h2⟩
  | @startDone a s h h2 =>
    rw [h] at hs
    obtain ⟨t, h5, h6⟩ := (blind_same (hmid.2 a hs).1 hm).1 _ h2
    exact ⟨t, l, .startDone h h5, h6, hl, trivial⟩
  | @startFail a e h h2 =>
    rw [h] at hs
    obtain ⟨e', h5, h6, h7⟩ := (blind_same (hmid.2 a hs).1 hm).2 _ h2
    refine ⟨e'.st, l, ?_, h7, hl, trivial⟩
    rw [← h6]
    exact .startFail h h5
  | flush h => exact ⟨_, l, .flush h, sameButOut_emit hm _ _, hl, trivial⟩
  | @take k rest h h2 =>
    exact ⟨_, l, .take h ((sameButOut_input hm).trans h2),
      by unfold SameButOut at hm ⊢; exact congrArg (fun s : St => { s with input := rest }) hm, hl, trivial⟩
  | @takeErr e rest h h2 =>
    exact ⟨_, l, .takeErr h ((sameButOut_input hm).trans h2),
      by unfold SameButOut at hm ⊢; exact congrArg (fun s : St => { s with input := rest }) hm, hl, trivial⟩
  | takeEof h h2 => exact ⟨m, l, .takeEof h ((sameButOut_input hm).trans h2), hm, hl, trivial⟩
  | lock h h2 =>
    obtain ⟨h3, h4⟩ := hl.free h2
    exact ⟨m, some .editor, .lock h h4, hm, .inl ⟨h3, rfl⟩, trivial⟩
  | @more b b' s h h2 =>
    obtain ⟨t, h5, h6⟩ := (blind_same (hbody b) hm).1 _ h2
    exact ⟨t, l, .more h h5, h6, hl, trivial⟩
  | @done b o s h h2 =>
    obtain ⟨t, h5, h6⟩ := (blind_same (hbody b) hm).1 _ h2
    exact ⟨t, l, .done h h5, h6, hl, trivial⟩
  | @fail b e h h2 =>
    obtain ⟨e', h5, h6, h7⟩ := (blind_same (hbody b) hm).2 _ h2
    refine ⟨e'.st, l, ?_, h7, hl, trivial⟩
    rw [← h6]
    exact .fail h h5
  | unlockGo h =>
    have h1 := hx.edUn _ h
    obtain ⟨h3, h4⟩ := hl.held (by rw [show l = some .editor from h1]; nofun)
    exact ⟨m, none, .unlockGo h, hm, .inl ⟨h3, rfl⟩, trivial⟩
  | unlockEnd h =>
    have h1 := hx.edUn _ h
    obtain ⟨h3, h4⟩ := hl.held (by rw [show l = some .editor from h1]; nofun)
    exact ⟨m, none, .unlockEnd h, hm, .inl ⟨h3, rfl⟩, trivial⟩
  | closeJoin hj h h2 => exact ⟨m, l, .closeJoin hj h h2, hm, hl, trivial⟩
  | closeFree hj h => exact ⟨m, l, .closeFree hj h, hm, hl, trivial⟩
  | tick w' h h2 => exact ⟨m, l, .tick w' h h2, hm, hl, hs⟩
  | watchLock h h2 =>
    obtain ⟨h3, h4⟩ := hl.free h2
    exact ⟨m, some .watcher, .watchLock h h4, hm, .inl ⟨h3, rfl⟩, hs⟩
  | @watchMore r r' s h h2 =>
    obtain ⟨t, h5, h6⟩ := (blind_same (hback r) hm).1 _ h2
    exact ⟨t, l, .watchMore h h5, h6, hl, hs⟩
  | @watchDone r s h h2 =>
    obtain ⟨t, h5, h6⟩ := (blind_same (hback r) hm).1 _ h2
    exact ⟨t, l, .watchDone h h5, h6, hl, hs⟩
  | @watchFail r e h h2 =>
    obtain ⟨e', h5, h6, h7⟩ := (blind_same (hback r) hm).2 _ h2
    refine ⟨e'.st, l, ?_, h7, hl, hs⟩
    rw [← h6]
    exact .watchFail h h5
  | watchUnlock h =>
    have h1 := hx.waUn h
    obtain ⟨h3, h4⟩ := hl.held (by rw [show l = some .watcher from h1]; nofun)
    exact ⟨m, none, .watchUnlock h, hm, .inl ⟨h3, rfl⟩, hs⟩
  | stop h => exact ⟨m, l, .stop h, hm, hl, hs⟩
  | chanClosed hj h h2 => exact ⟨m, l, .chanClosed hj h h2, hm, hl, hs⟩

/-- How many goroutines of earlier calls are between `Lock` and `Unlock`. -/
def LatePc.within {R : Type} : LatePc R → Bool
  | .running _ | .unlocking | .crashed _ => true
  | _ => false

def inMutex (l : List (Late R)) : Nat := (l.filter (·.pc.within)).length

theorem inMutex_at (a b : List (Late R)) (x : Late R) :
    inMutex (a ++ x :: b) = inMutex (a ++ b) + if x.pc.within then 1 else 0 := by
  unfold inMutex
  rw [List.filter_append, List.filter_append, List.filter_cons]
  split <;> simp only [List.length_append, List.length_cons] <;> omega

/-- The present call with the goroutines of earlier calls about, and the same call by itself. -/
structure Sim (C : Cut) (joins early : Bool) (may : Env → Prop) (E₀ : Env) (w : World) (p : Prog C) (m : St) (l : Option Who) : Prop where
  env : may p.E
  alone : Alone C joins early may E₀ w p.results p.E { p.g with mem := m, lock := l }
  mem : SameButOut m p.g.mem
  lock : LockRel (inMutex p.late) l p.g.lock
  mid : ∃ mid : C.A → Prop, (mid (C.begin p.E) ∧ ∀ a, mid a → OutBlind (C.start p.E a) ∧
    ∀ s s' a', C.start p.E a s = .ok (s', .inl a') → mid a') ∧ Mid (K := C.code p.E) mid p.g.ed

theorem sim_steps (hd : ∀ E, may E → Spec.Deaf C E) (hE : may E) {p : Prog C}
    (h : ProgSteps C joins early may (Prog.init C E w) p) : ∃ m l, Sim C joins early may E w p m l := by
  induction h with
  | refl =>
    obtain ⟨mid, h1⟩ := (hd E hE).start
    exact ⟨bufferSt E w, none, hE, .first .refl, rfl, .inl ⟨rfl, rfl⟩, mid, h1, trivial⟩
  | @step p1 p2 h1 hc h2 ih =>
    obtain ⟨m, l, ⟨henv, hal, hm, hl, mid, hmid, hs⟩⟩ := ih
    have D := hd _ henv
    have hw : ∀ k, p1.g.wa ≠ .crashed k := fun k hk => hc (.inl ⟨k, hk⟩)
    obtain ⟨w', hreach⟩ := hal.here
    have hx := excl_steps excl_init hreach
    cases h2 with
    | @now g' hst =>
      obtain ⟨m', l', h3, h4, h5, h6⟩ := sim_step hmid D.body D.back hx hm hl hs hst
      exact ⟨m', l', henv, hal.step hw h3, h4, h5, mid, hmid, h6⟩
    | @next r E' hE' hr =>
      obtain ⟨mid', h3⟩ := (hd E' hE').start
      refine ⟨bufferSt E' m.world.leave, none, hE', .next hE' hal hr hw .refl, ?_, ?_, mid', h3, trivial⟩
      · show SameButOut (bufferSt E' m.world.leave) (bufferSt E' p1.g.mem.world.leave)
        unfold SameButOut at hm ⊢
        have := congrArg (fun s : St => ({ bufferSt E' s.world.leave with out := [] } : St)) hm
        exact this
      · show LockRel (inMutex (p1.late ++ [⟨p1.g.mem, p1.g.wa.late⟩])) none p1.g.lock
        rw [inMutex_at, List.append_nil]
        rcases returned_lock hreach hr hw with h4 | ⟨h4, h5⟩
        · have h4 : l = none := h4
          have hn : p1.g.wa.late.within = false := by
            have h6 := hx.wa
            have h7 := hx.waUn
            cases hwa : p1.g.wa with
            | running r => have := h6 r hwa; rw [show l = some .watcher from this] at h4; cases h4
            | unlocking => have := h7 hwa; rw [show l = some .watcher from this] at h4; cases h4
            | crashed k => exact (hw k hwa).elim
            | _ => rfl
          rw [show (⟨p1.g.mem, p1.g.wa.late⟩ : Late C.R).pc.within = false from hn]
          rw [h4] at hl
          exact hl
        · have h4 : l = some .watcher := h4
          obtain ⟨h6, h7⟩ := hl.held (by rw [h4]; nofun)
          have hn : p1.g.wa.late.within = true := by
            rcases h5 with ⟨r, h5⟩ | h5
            · rw [show p1.g.wa = _ from h5]; rfl
            · rw [show p1.g.wa = _ from h5]; rfl
          rw [show (⟨p1.g.mem, p1.g.wa.late⟩ : Late C.R).pc.within = true from hn, h6]
          exact .inr ⟨rfl, rfl, h7.symm.trans h4⟩
    | @tick a x b w' he hp =>
      refine ⟨m, l, henv, hal, hm, ?_, mid, hmid, hs⟩
      rw [he, inMutex_at, hp] at hl
      rw [inMutex_at]
      exact hl
    | @lock a x b w' he hp hn =>
      obtain ⟨h3, h4⟩ := hl.free hn
      refine ⟨m, l, henv, hal, hm, ?_, mid, hmid, hs⟩
      rw [he, inMutex_at, hp] at h3
      rw [inMutex_at]
      refine .inr ⟨?_, h4, rfl⟩
      have : inMutex (a ++ b) = 0 := by omega
      rw [this]
      rfl
    | @more a x b r r' s he hp hb =>
      refine ⟨m, l, henv, hal, ?_, ?_, mid, hmid, hs⟩
      · have hg := D.gentle hb
        show SameButOut m (p1.g.mem.lend s)
        unfold SameButOut St.lend at *
        rw [hg, hm]
      · rw [he, inMutex_at, hp] at hl
        rw [inMutex_at]
        exact hl
    | @done a x b r s he hp hb =>
      refine ⟨m, l, henv, hal, ?_, ?_, mid, hmid, hs⟩
      · have hg := D.gentle hb
        show SameButOut m (p1.g.mem.lend s)
        unfold SameButOut St.lend at *
        rw [hg, hm]
      · rw [he, inMutex_at, hp] at hl
        rw [inMutex_at]
        exact hl
    | @fail a x b r e he hp hb =>
      refine ⟨m, l, henv, hal, hm, ?_, mid, hmid, hs⟩
      rw [he, inMutex_at, hp] at hl
      rw [inMutex_at]
      exact hl
    | @unlock a x b he hp =>
      refine ⟨m, l, henv, hal, hm, ?_, mid, hmid, hs⟩
      rw [he, inMutex_at, hp] at hl
      rw [inMutex_at]
      rcases hl with ⟨h3, -⟩ | ⟨h3, h4, -⟩
      · simp [LatePc.within] at h3
      · refine .inl ⟨?_, h4⟩
        simp [LatePc.within] at h3 ⊢
        exact h3
    | @stop a x b he hp =>
      refine ⟨m, l, henv, hal, hm, ?_, mid, hmid, hs⟩
      rw [he, inMutex_at, hp] at hl
      rw [inMutex_at]
      exact hl
    | @closed a x b hj he hp =>
      refine ⟨m, l, henv, hal, hm, ?_, mid, hmid, hs⟩
      rw [he, inMutex_at, hp] at hl
      rw [inMutex_at]
      exact hl

/-! ## The keys that are left -/

/-- The code takes keys from the input and puts nothing there. -/
structure Spec.KeysOnly (C : Cut) (E : Env) : Prop where
  start : ∃ mid : C.A → Prop, mid (C.begin E) ∧ ∀ a, mid a → ∀ s s' x, C.start E a s = .ok (s', x) →
    s'.input = s.input ∧ ∀ a', x = .inl a' → mid a'
  body {l : C.L} {s s' : St} {x : C.L ⊕ Option RLRes} : C.body E l s = .ok (s', x) → noResize s.input = s.input →
    noResize s'.input = s'.input
  back {r : C.R} {s s' : St} {x : C.R ⊕ Unit} : C.back E r s = .ok (s', x) → s'.input = s.input

theorem keys_steps (hk : Spec.KeysOnly C E) (hn : noResize w.input = w.input) {g : G (C.code E)}
    (h : Steps (C.code E) joins early (G.init _ E w) g) (hp : ¬ g.ed.panicked)
    (hw : ∀ k, g.wa ≠ .crashed k) : noResize g.mem.input = g.mem.input := by
  obtain ⟨mid, h0, hmid⟩ := hk.start
  suffices H : Mid (K := C.code E) mid g.ed ∧ (¬ g.ed.panicked → (∀ k, g.wa ≠ .crashed k) → noResize g.mem.input = g.mem.input) from H.2 hp hw
  clear hp hw
  induction h with
  | refl => exact ⟨trivial, fun _ _ => hn⟩
  | @step g1 g2 h1 hc h2 ih =>
    obtain ⟨ih1, ih2⟩ := ih
    have np : ∀ {pc}, g1.ed = pc → ¬ pc.panicked → noResize g1.mem.input = g1.mem.input := fun h hp => ih2 (by rw [h]; exact hp) hc
    cases h2 with
    | size w' h => exact ⟨trivial, fun _ _ => np h id⟩
    | assign h => exact ⟨h0, fun _ _ => np h id⟩
    | @startMore a a' s h h2 =>
      rw [h] at ih1
      obtain ⟨h3, h4⟩ := hmid a ih1 _ _ _ h2
      exact ⟨h4 _ rfl, fun _ _ => (by show noResize s.input = s.input; rw [h3]; exact np h id)⟩
    | @startDone a s h h2 =>
      rw [h] at ih1
      obtain ⟨h3, h4⟩ := hmid a ih1 _ _ _ h2
      exact ⟨trivial, fun _ _ => (by show noResize s.input = s.input; rw [h3]; exact np h id)⟩
    | startFail h h2 => exact ⟨trivial, fun hp _ => (hp trivial).elim⟩
    | flush h => exact ⟨trivial, fun _ _ => np h id⟩
    | @take k rest h h2 =>
      refine ⟨trivial, fun _ _ => ?_⟩
      have := np h id
      rw [h2] at this
      exact noResize_cons this
    | @takeErr e rest h h2 =>
      refine ⟨trivial, fun _ _ => ?_⟩
      have := np h id
      rw [h2] at this
      exact noResize_cons this
    | takeEof h h2 => exact ⟨trivial, fun _ _ => np h id⟩
    | lock h h2 => exact ⟨trivial, fun _ _ => np h id⟩
    | more h h2 => exact ⟨trivial, fun _ _ => hk.body h2 (np h id)⟩
    | done h h2 => exact ⟨trivial, fun _ _ => hk.body h2 (np h id)⟩
    | fail h h2 => exact ⟨trivial, fun hp _ => (hp trivial).elim⟩
    | unlockGo h => exact ⟨trivial, fun _ _ => np h id⟩
    | unlockEnd h => exact ⟨trivial, fun _ _ => np h id⟩
    | @closeJoin r hj h h2 =>
      cases r with
      | ok r => exact ⟨trivial, fun _ _ => np h id⟩
      | error k => exact ⟨trivial, fun hp _ => (hp trivial).elim⟩
    | @closeFree r hj h =>
      cases r with
      | ok r => exact ⟨trivial, fun _ _ => np h id⟩
      | error k => exact ⟨trivial, fun hp _ => (hp trivial).elim⟩
    | tick w' h h2 => exact ⟨ih1, fun hp _ => ih2 hp hc⟩
    | watchLock h h2 => exact ⟨ih1, fun hp _ => ih2 hp hc⟩
    | @watchMore r r' s h h2 =>
      exact ⟨ih1, fun hp _ => (by show noResize s.input = s.input; rw [hk.back h2]; exact ih2 hp hc)⟩
    | @watchDone r s h h2 =>
      exact ⟨ih1, fun hp _ => (by show noResize s.input = s.input; rw [hk.back h2]; exact ih2 hp hc)⟩
    | @watchFail r e h h2 => exact ⟨ih1, fun _ hw => (hw _ rfl).elim⟩
    | watchUnlock h => exact ⟨ih1, fun hp _ => ih2 hp hc⟩
    | stop h => exact ⟨ih1, fun hp _ => ih2 hp hc⟩
    | chanClosed hj h h2 => exact ⟨ih1, fun hp _ => ih2 hp hc⟩

/-- What the present call found in the editor. -/
theorem Spec.Alone.found (hk : ∀ E, may E → Spec.KeysOnly C E) {E₀ : Env} (hE : may E₀) (hn : noResize w.input = w.input)
    {rs : List RLRes} {E : Env} {g : G (C.code E)} (h : Alone C joins early may E₀ w rs E g) :
    ∃ w', (rs = [] → w' = w) ∧ noResize w'.input = w'.input ∧ may E ∧ Steps (C.code E) joins early (G.init _ E w') g := by
  induction h with
  | first h => exact ⟨w, fun _ => rfl, hn, hE, h⟩
  | @next rs E g r E' g' hm h hr hw hs ih =>
    obtain ⟨w', -, h2, h3, h4⟩ := ih
    refine ⟨g.mem.world.leave, fun h => by simp at h, ?_, hm, hs⟩
    exact keys_steps (hk E h3) h2 h4 (by rw [hr]; exact id) hw

/-! ## The code cut into statements -/

theorem stepList_out {a : List (St → M St)} (h : ∀ f ∈ a, OutBlind (fun s => (f s).map fun t => (t, ()))) :
    OutBlind (stepList a) := by
  intro s p
  cases a with
  | nil => rfl
  | cons f fs =>
    have h1 := h f (by simp) s p
    dsimp only at h1
    simp only [stepList]
    cases hf : f s with
    | error e =>
      rw [hf] at h1
      cases hf' : f (s.wrote p) with
      | ok t => rw [hf'] at h1; cases h1
      | error e' => rw [hf'] at h1; injection h1 with h1; subst h1; rfl
    | ok t =>
      rw [hf] at h1
      cases hf' : f (s.wrote p) with
      | error e' => rw [hf'] at h1; cases h1
      | ok t' =>
        rw [hf'] at h1
        injection h1 with h1
        have h2 : t' = t.wrote p := (Prod.ext_iff.mp h1).1
        subst h2
        cases fs <;> rfl

theorem start_io (E : Env) : ∀ f ∈ startStmts E, ∀ s i p,
    (f (St.io s i p)).map (fun t => (t, ())) = under2 i p ((f s).map fun t => (t, ())) := by
  intro f hf s i p
  simp only [startStmts, List.mem_cons, List.not_mem_nil, or_false] at hf
  rcases hf with rfl | rfl | rfl | rfl | rfl
  · dsimp only
    rw [callPromptWriter_io]
    generalize callPromptWriter E s = q
    obtain ⟨top, t⟩ := q
    dsimp only
    cases E.promptErr with
    | some e => dsimp only; rw [emit_io]; rfl
    | none =>
      dsimp only
      by_cases hw : top ≥ t.termWidth - 3
      · have hw' : top ≥ (t.io i p).termWidth - 3 := hw
        rw [if_pos hw, if_pos hw', emit_io]
        rfl
      · have hw' : ¬ top ≥ (t.io i p).termWidth - 3 := hw
        rw [if_neg hw, if_neg hw']
        rfl
  · dsimp only
    rw [insertString_io]
    cases insertString E s 0 E.default <;> rfl
  · dsimp only
    have h2 : (if (s.io i p).cursor > (s.io i p).len then { s.io i p with cursor := (s.io i p).len }
        else s.io i p) = (if s.cursor > s.len then { s with cursor := s.len } else s).io i p :=
      io_ite Iff.rfl rfl rfl
    rw [h2]
    rfl
  · dsimp only
    rw [repaintAfterPrompt_io]
    cases repaintAfterPrompt E s <;> rfl
  · dsimp only
    rw [emit_io]
    rfl

theorem start_out (E : Env) : ∀ f ∈ startStmts E, OutBlind (fun s => (f s).map fun t => (t, ())) := fun f hf =>
  outBlind_io (start_io E f hf)

theorem stepCmd_out (hE : OutBlindKeys E) (l : CmdPc) : OutBlind (stepCmd E l) := by
  intro s p
  cases l with
  | off k => simp only [stepCmd]; rw [wrote_emit]; rfl
  | call k =>
    simp only [stepCmd]
    rw [call_out (hE k) s p]
    exact wroteAll_bind fun a => rfl
  | on rc => cases rc <;> (simp only [stepCmd]; rw [wrote_emit]; rfl)
  | finish rc =>
    simp only [stepCmd]
    have h := finishLocked_out (E := E) rc s p
    dsimp only at h
    rw [h]
    exact wroteAll_bind fun a => rfl

theorem stepBack_cursor {r : BackPc} {s s' : St} {x : BackPc ⊕ Unit} (h : stepBack E r s = .ok (s', x)) :
    s'.cursor = s.cursor := by
  cases r with
  | width v => injection h with h; obtain ⟨rfl, -⟩ := Prod.ext_iff.mp h; rfl
  | view => injection h with h; obtain ⟨rfl, -⟩ := Prod.ext_iff.mp h; rfl
  | paint =>
    obtain ⟨t, h1, h2⟩ := bind_ok.mp h
    injection h2 with h2
    obtain ⟨rfl, -⟩ := Prod.ext_iff.mp h2
    exact (Obs.of_predict (repaintLastLine_ed h1)).cursor

/-- The statements do not look at what was written. -/
theorem stmtCut_deaf (hE : OutBlindKeys E) : Spec.Deaf stmtCut E where
  start := ⟨fun (a : List (St → M St)) => ∀ f ∈ a, OutBlind (fun s => (f s).map fun t => (t, ())), start_out E, fun a ha => ⟨stepList_out ha, by
    intro s s' a' h
    have h : stepList a s = .ok (s', .inl a') := h
    cases a with
    | nil => cases h
    | cons f fs =>
      obtain ⟨t, h1, h2⟩ := bind_ok.mp h
      cases fs with
      | nil => injection h2 with h2; cases (Prod.ext_iff.mp h2).2
      | cons f' fs =>
        injection h2 with h2
        injection (Prod.ext_iff.mp h2).2 with h3
        rw [← h3]
        exact fun g hg => ha g (List.mem_cons_of_mem _ hg)⟩⟩
  body := stepCmd_out hE
  back r := outBlind_io fun s i p => stmts_blind E r s i p
  gentle := stepBack_cursor

theorem io_kept {f : St → M (St × α)} (h : ∀ s i p, f (s.io i p) = under2 i p (f s)) {s s' : St} {x : α}
    (hf : f s = .ok (s', x)) : s'.input = s.input := by
  have h1 := h s s.input []
  rw [io_self, hf] at h1
  injection h1 with h1
  have h2 : s' = s'.io s.input [] := (Prod.ext_iff.mp h1).1
  rw [h2]
  rfl

/-- The statements take keys from the input and put nothing there. -/
theorem stmtCut_keys (hb : BuiltinKeys E) : Spec.KeysOnly stmtCut E where
  start := ⟨fun (a : List (St → M St)) => ∀ f ∈ a, f ∈ startStmts E, fun f hf => hf, by
    intro a ha s s' x h
    have h : stepList a s = .ok (s', x) := h
    cases a with
    | nil =>
      injection h with h
      obtain ⟨rfl, rfl⟩ := Prod.ext_iff.mp h
      exact ⟨rfl, fun a' h => nomatch h⟩
    | cons f fs =>
      obtain ⟨t, h1, h2⟩ := bind_ok.mp h
      have ht : t.input = s.input := io_kept (f := fun s => (f s).map fun t => (t, ()))
        (start_io E f (ha f (by simp))) (x := ()) (by rw [h1]; rfl)
      cases fs with
      | nil =>
        injection h2 with h2
        obtain ⟨rfl, rfl⟩ := Prod.ext_iff.mp h2
        exact ⟨ht, fun a' h => nomatch h⟩
      | cons f' fs =>
        injection h2 with h2
        obtain ⟨rfl, rfl⟩ := Prod.ext_iff.mp h2
        refine ⟨ht, fun a' h => ?_⟩
        injection h with h
        rw [← h]
        exact fun g hg => ha g (List.mem_cons_of_mem _ hg)⟩
  body := by
    intro l s s' x h hn
    have h : stepCmd E l s = .ok (s', x) := h
    cases l with
    | off k => injection h with h; obtain ⟨rfl, -⟩ := Prod.ext_iff.mp h; exact hn
    | call k =>
      obtain ⟨⟨t, rc⟩, h1, h2⟩ := bind_ok.mp h
      injection h2 with h2
      obtain ⟨rfl, -⟩ := Prod.ext_iff.mp h2
      obtain ⟨u, h3, -⟩ := call_takes (BuiltinKeys.builtin hb k) hn h1
      rw [h3] at hn
      exact (noResize_left hn).2
    | on rc => cases rc <;> (injection h with h; obtain ⟨rfl, -⟩ := Prod.ext_iff.mp h; exact hn)
    | finish rc =>
      obtain ⟨⟨t, r⟩, h1, h2⟩ := bind_ok.mp h
      injection h2 with h2
      obtain ⟨rfl, -⟩ := Prod.ext_iff.mp h2
      have h3 := finish_eq (E := E) s rc
      rw [h1] at h3
      have h4 := finish_input' h3
      have h4 : t.input = s.input := h4
      rw [h4]
      exact hn
  back := by
    intro r s s' x h
    exact io_kept (f := stepBack E r) (stmts_blind E r) h

/-! ## A callback of an earlier call -/

/-- No goroutine has ended the program. -/
theorem Prog.fine {p : Prog C} {a b : List (Late C.R)} {x : Late C.R} (hg : ∀ k, p.g.wa ≠ .crashed k)
    (ha : ∀ y ∈ a ++ b, ∀ k, y.pc ≠ .crashed k) (hx : ∀ k, x.pc ≠ .crashed k) (hl : p.late = a ++ x :: b) :
    ¬ p.crashed := by
  rintro (⟨k, h⟩ | ⟨y, hy, k, h⟩)
  · exact hg k h
  · rw [hl] at hy
    rcases List.mem_append.mp hy with hy | hy
    · exact ha y (List.mem_append_left _ hy) k h
    · rcases List.mem_cons.mp hy with rfl | hy
      · exact hx k h
      · exact ha y (List.mem_append_right _ hy) k h

theorem ProgSteps.trans {p q r : Prog C} (h : ProgSteps C joins early may p q) (h' : ProgSteps C joins early may q r) :
    ProgSteps C joins early may p r := by
  induction h' with
  | refl => exact h
  | step _ h2 h3 ih => exact .step ih h2 h3

theorem ProgSteps.one {p q : Prog C} (hc : ¬ p.crashed) (h : ProgStep C joins early may p q) :
    ProgSteps C joins early may p q := .step .refl hc h

/-- The present call goes on by itself. -/
theorem prog_now {p : Prog C} {g : G (C.code p.E)} (ha : ∀ y ∈ p.late, ∀ k, y.pc ≠ .crashed k)
    (h : Steps (C.code p.E) joins early p.g g) : ProgSteps C joins early may p { p with g := g } := by
  induction h with
  | refl => exact .refl
  | @step g1 g2 h1 hc h2 ih =>
    refine .step ih ?_ (ProgStep.now (p := { p with g := g1 }) h2)
    rintro (⟨k, h⟩ | ⟨y, hy, k, h⟩)
    · exact hc k h
    · exact ha y hy k h

theorem run_late {r : C.R} {s : St} {E : Env} {x : M (St × Unit)} (h : Runs (C.back E) r s x) {g : G (C.code E)} {m : St}
    {a b : List (Late C.R)} {rs : List RLRes}
    (hg : ∀ k, g.wa ≠ .crashed k) (ha : ∀ y ∈ a ++ b, ∀ k, y.pc ≠ .crashed k) (hm : m.lend g.mem = s) :
    (∀ s', x = .ok (s', ()) → ProgSteps C joins early may
      { E := E, g := g, late := a ++ ⟨m, .running r⟩ :: b, results := rs }
      { E := E, g := { g with mem := g.mem.lend s' }, late := a ++ ⟨s', .unlocking⟩ :: b, results := rs }) ∧
    (∀ e, x = .error e → ∃ p, ProgSteps C joins early may
      { E := E, g := g, late := a ++ ⟨m, .running r⟩ :: b, results := rs } p ∧ p.results = rs ∧
      ⟨e.st, .crashed e.kind⟩ ∈ p.late) := by
  have fine : ∀ (g : G (C.code E)) (m : St) (r : C.R), (∀ k, g.wa ≠ .crashed k) →
      ¬ Prog.crashed (C := C) { E := E, g := g, late := a ++ ⟨m, .running r⟩ :: b, results := rs } := fun g m r hg =>
    Prog.fine (x := ⟨m, .running r⟩) hg ha (fun _ => nofun) rfl
  induction h generalizing g m with
  | @more r r' s s' x h1 _ ih =>
    have st : ProgSteps C joins early may _ _ := .one (fine g m r hg) (ProgStep.more rfl rfl (by rw [hm]; exact h1))
    obtain ⟨i1, i2⟩ := ih (g := { g with mem := g.mem.lend s' }) (m := s') hg rfl
    refine ⟨fun s'' hx => st.trans (i1 s'' hx), fun e hx => ?_⟩
    obtain ⟨p, hp, hp2⟩ := i2 e hx
    exact ⟨p, st.trans hp, hp2⟩
  | @done r s s' u h1 =>
    refine ⟨fun s'' hx => ?_, fun e hx => by cases hx⟩
    injection hx with hx
    have : s' = s'' := (Prod.ext_iff.mp hx).1
    subst this
    exact .one (fine g m r hg) (ProgStep.done rfl rfl (by rw [hm]; exact h1))
  | @fail r s e h1 =>
    refine ⟨fun s'' hx => (by cases hx), fun e' hx => ?_⟩
    injection hx with hx
    subst hx
    exact ⟨_, .one (fine g m r hg) (ProgStep.fail rfl rfl (by rw [hm]; exact h1)), rfl, by simp⟩

/-- A call with a signal on its way ends; the next call has begun. -/
theorem follow_again {E E' : Env} (hF : Faithful E (C.code E)) (hF' : Faithful E' (C.code E')) (hb : BuiltinKeys E)
    (hb' : BuiltinKeys E') (hm : may E') {w : World}
    (hn : noResize w.input = w.input) {s s' t : St} {k : Bytes} {rest : List Ev} {r : RLRes} (hr : Reachable E w s)
    (hi : s.input = .key k :: rest) (hk : lockedPart E k { s.emit .await with input := rest } = .ok (s', some r))
    (ht : Reachable E' s'.world.leave t) (hn' : noResize s'.input = s'.input) (w' : Int) :
    ∃ log, ProgSteps C false early may (Prog.init C E w)
      { E := E', g := { mem := t, ed := .idle, log := log }, late := [⟨s', .locking w'⟩], results := [r] } := by
  obtain ⟨log, h1, -⟩ := follow (joins := false) (early := early) hF hb hn hr
  have h2 : Steps (C.code E) false early ({ mem := s, ed := .idle, log := log } : G (C.code E))
      { mem := s, ed := .idle, wa := .locking w', log := log } := .one (fun _ => nofun) (.tick w' (fun _ => trivial) rfl)
  have h5 := follow_key (joins := false) (early := early) (K := C.code E)
    (g := { mem := s, ed := .idle, wa := .locking w', log := log }) rfl rfl hi (fun _ => nofun)
  have h6 := hF.body k { s.emit .await with input := rest }
  rw [hk] at h6
  have h7 := (run_body (joins := false) (early := early) h6
    (g := { mem := { s.emit .await with input := rest }, ed := .running ((C.code E).enter k), wa := .locking w',
            lock := some .editor, log := log ++ [.key k] }) rfl rfl (fun _ => nofun)).1 s' (some r) rfl
  have h8 : Steps (C.code E) false early
      ({ mem := s', ed := .unlocking (some r), lock := some .editor, wa := .locking w', log := log ++ [.key k] } : G (C.code E))
      { mem := s', ed := .closing (.ok r), wa := .locking w', log := log ++ [.key k] } := .one (fun _ => nofun) (.unlockEnd rfl)
  have h9 : Steps (C.code E) false early
      ({ mem := s', ed := .closing (.ok r), wa := .locking w', log := log ++ [.key k] } : G (C.code E))
      { mem := s', ed := .returned (.ok r), wa := .locking w', log := log ++ [.key k] } :=
    .one (fun _ => nofun) (.closeFree rfl rfl)
  have hA := ((((h1.trans h2).trans h5).trans h7).trans h8).trans h9
  have hB : ProgSteps C false early may (Prog.init C E w) _ :=
    prog_now (p := Prog.init C E w) (fun y hy => by cases hy) hA
  have hC := ProgSteps.one (joins := false) (early := early) (may := may) (p := { Prog.init C E w with
    g := ({ mem := s', ed := .returned (.ok r), wa := .locking w', log := log ++ [.key k] } : G (C.code E)) })
    (by rintro (⟨k, h⟩ | ⟨y, hy, -⟩)
        · cases h
        · cases hy) (.next E' hm rfl)
  obtain ⟨log', hD, -⟩ := follow (joins := false) (early := early) hF' hb' (w := s'.world.leave) hn' ht
  have hE := prog_now (C := C) (joins := false) (early := early) (may := may)
    (p := { E := E', g := G.init (C.code E') E' s'.world.leave, late := [⟨s', .locking w'⟩], results := [r] })
    (fun y hy => by rw [List.mem_singleton.mp hy]; exact fun _ => nofun) hD
  exact ⟨log', (hB.trans hC).trans hE⟩

end Readline
