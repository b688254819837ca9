import Verif.Proof.Merge
/-!
# Schedules that exist

What the goroutines can do: the code of a piece can be run to its end, a session can be followed,
and everybody gets out of the mutex.
-/
namespace Readline
open Spec

variable {E : Env} {w : World} {K : Code} {joins early : Bool}

theorem Steps.trans {a b c : G K} (h : Steps K joins early a b) (h' : Steps K joins early b c) :
    Steps K joins early a c := by
  induction h' with
  | refl => exact h
  | step _ h2 h3 ih => exact .step ih h2 h3

theorem Steps.one {a b : G K} (ha : ∀ k, a.wa ≠ .crashed k) (h : Step K joins early a b) :
    Steps K joins early a b := .step .refl ha h

theorem run_start {a : K.A} {s : St} {x : M (St × Unit)} (h : Runs K.start a s x) {g : G K}
    (he : g.ed = .starting a) (hm : g.mem = s) (ha : ∀ k, g.wa ≠ .crashed k) :
    (∀ s', x = .ok (s', ()) → Steps K joins early g { g with ed := .idle, mem := s' }) ∧
    (∀ e, x = .error e → Steps K joins early g { g with ed := .closing (.error e.kind), mem := e.st }) := by
  induction h generalizing g with
  | @more a a' s s' x h1 _ ih =>
    have st : Step K joins early g { g with ed := .starting a', mem := s' } := .startMore he (by rw [hm]; exact h1)
    obtain ⟨i1, i2⟩ := ih (g := { g with ed := .starting a', mem := s' }) rfl rfl ha
    exact ⟨fun s' hx => (Steps.one ha st).trans (i1 s' hx), fun e hx => (Steps.one ha st).trans (i2 e hx)⟩
  | @done a s s' b h1 =>
    refine ⟨fun s'' hx => ?_, fun e hx => by cases hx⟩
    injection hx with hx
    have : s' = s'' := (Prod.ext_iff.mp hx).1
    subst this
    exact .one ha (.startDone he (by rw [hm]; exact h1))
  | @fail a s e h1 =>
    refine ⟨fun s'' hx => (by cases hx), fun e' hx => ?_⟩
    injection hx with hx
    subst hx
    exact .one ha (.startFail he (by rw [hm]; exact h1))

theorem run_body {l : K.L} {s : St} {x : M (St × Option RLRes)} (h : Runs K.body l s x) {g : G K}
    (he : g.ed = .running l) (hm : g.mem = s) (ha : ∀ k, g.wa ≠ .crashed k) :
    (∀ s' o, x = .ok (s', o) → Steps K joins early g { g with ed := .unlocking o, mem := s' }) ∧
    (∀ e, x = .error e → Steps K joins early g { g with ed := .closing (.error e.kind), mem := e.st }) := by
  induction h generalizing g with
  | @more a a' s s' x h1 _ ih =>
    have st : Step K joins early g { g with ed := .running a', mem := s' } := .more he (by rw [hm]; exact h1)
    obtain ⟨i1, i2⟩ := ih (g := { g with ed := .running a', mem := s' }) rfl rfl ha
    exact ⟨fun s' o hx => (Steps.one ha st).trans (i1 s' o hx), fun e hx => (Steps.one ha st).trans (i2 e hx)⟩
  | @done a s s' b h1 =>
    refine ⟨fun s'' o hx => ?_, fun e hx => by cases hx⟩
    injection hx with hx
    obtain ⟨rfl, rfl⟩ := Prod.ext_iff.mp hx
    exact .one ha (.done he (by rw [hm]; exact h1))
  | @fail a s e h1 =>
    refine ⟨fun s'' o hx => (by cases hx), fun e' hx => ?_⟩
    injection hx with hx
    subst hx
    exact .one ha (.fail he (by rw [hm]; exact h1))

theorem run_back {r : K.R} {s : St} {x : M (St × Unit)} (h : Runs K.back r s x) {g : G K}
    (he : g.wa = .running r) (hm : g.mem = s) :
    (∀ s', x = .ok (s', ()) → Steps K joins early g { g with wa := .unlocking, mem := s' }) ∧
    (∀ e, x = .error e → Steps K joins early g { g with wa := .crashed e.kind, mem := e.st }) := by
  induction h generalizing g with
  | @more a a' s s' x h1 _ ih =>
    have st : Step K joins early g { g with wa := .running a', mem := s' } := .watchMore he (by rw [hm]; exact h1)
    have ha : ∀ k, g.wa ≠ .crashed k := fun k => by rw [he]; nofun
    obtain ⟨i1, i2⟩ := ih (g := { g with wa := .running a', mem := s' }) rfl rfl
    exact ⟨fun s' hx => (Steps.one ha st).trans (i1 s' hx), fun e hx => (Steps.one ha st).trans (i2 e hx)⟩
  | @done a s s' b h1 =>
    have ha : ∀ k, g.wa ≠ .crashed k := fun k => by rw [he]; nofun
    refine ⟨fun s'' hx => ?_, fun e hx => by cases hx⟩
    injection hx with hx
    have : s' = s'' := (Prod.ext_iff.mp hx).1
    subst this
    exact .one ha (.watchDone he (by rw [hm]; exact h1))
  | @fail a s e h1 =>
    have ha : ∀ k, g.wa ≠ .crashed k := fun k => by rw [he]; nofun
    refine ⟨fun s'' hx => (by cases hx), fun e' hx => ?_⟩
    injection hx with hx
    subst hx
    exact .one ha (.watchFail he (by rw [hm]; exact h1))

/-- From the start of `ReadLine` to the first key. -/
theorem follow_start (hF : Faithful E K) {s : St} (h : startSt E w = .ok s) :
    Steps K joins early (G.init K E w) { mem := s, ed := .idle } := by
  have h1 : Steps K joins early (G.init K E w) { mem := bufferSt E w, ed := .sized w.termWidth } :=
    .one (fun _ => nofun) (.size w.termWidth rfl)
  have h2 : Steps K joins early { mem := bufferSt E w, ed := .sized w.termWidth }
      ({ mem := { bufferSt E w with termWidth := w.termWidth }, ed := .starting K.begin } : G K) :=
    .one (fun _ => nofun) (.assign rfl)
  have h3 := hF.start { bufferSt E w with termWidth := w.termWidth }
  rw [startFrom_eq, h] at h3
  have h4 := (run_start (joins := joins) (early := early) h3
    (g := { mem := { bufferSt E w with termWidth := w.termWidth }, ed := .starting K.begin }) rfl rfl
    (fun _ => nofun)).1 s rfl
  exact (h1.trans h2).trans h4

/-- From the wait for a key into the mutex. -/
theorem follow_key {k : Bytes} {rest : List Ev} {g : G K} (he : g.ed = .idle) (hl : g.lock = none)
    (hi : g.mem.input = .key k :: rest) (ha : ∀ k, g.wa ≠ .crashed k) :
    Steps K joins early g
      { g with
        ed := .running (K.enter k), lock := some .editor, log := g.log ++ [.key k]
        mem := { g.mem.emit .await with input := rest } } := by
  have h1 : Steps K joins early g { g with ed := .waiting, mem := g.mem.emit .await } := .one ha (.flush he)
  have h2 : Steps K joins early { g with ed := .waiting, mem := g.mem.emit .await }
      { g with ed := .locking k, mem := { g.mem.emit .await with input := rest } } :=
    .one ha (.take rfl hi)
  exact (h1.trans h2).trans (.one ha (.lock rfl hl))

/-- A whole command. -/
theorem do_key (hF : Faithful E K) {k : Bytes} {rest : List Ev} {s s' : St} {log : List Op}
    (hi : s.input = .key k :: rest) (h : lockedPart E k { s.emit .await with input := rest } = .ok (s', none)) :
    Steps K joins early { mem := s, ed := .idle, log := log } { mem := s', ed := .idle, log := log ++ [.key k] } := by
  have h5 := follow_key (joins := joins) (early := early) (K := K)
    (g := { mem := s, ed := .idle, log := log }) rfl rfl hi (fun _ => nofun)
  have h6 := hF.body k { s.emit .await with input := rest }
  rw [h] at h6
  have h7 := (run_body (joins := joins) (early := early) h6
    (g := { mem := { s.emit .await with input := rest }, ed := .running (K.enter k),
            lock := some .editor, log := log ++ [.key k] }) rfl rfl (fun _ => nofun)).1 s' none rfl
  have h8 : Steps K joins early
      ({ mem := s', ed := .unlocking none, lock := some .editor, log := log ++ [.key k] } : G K)
      { mem := s', ed := .idle, log := log ++ [.key k] } := .one (fun _ => nofun) (.unlockGo rfl)
  exact (h5.trans h7).trans h8

/-- A whole callback. -/
theorem do_resize (hF : Faithful E K) {s s' : St} {log : List Op} {w' : Int} (h : onResize E s w' = .ok s') :
    Steps K joins early { mem := s, ed := .idle, log := log } { mem := s', ed := .idle, log := log ++ [.resize w'] } := by
  have t2 : Steps K joins early { mem := s, ed := .idle, log := log }
      { mem := s, ed := .idle, wa := .locking w', log := log } :=
    .one (fun _ => nofun) (.tick w' (fun _ => trivial) rfl)
  have t3 : Steps K joins early { mem := s, ed := .idle, wa := .locking w', log := log }
      { mem := s, ed := .idle, wa := .running (K.call w'), lock := some .watcher, log := log ++ [.resize w'] } :=
    .one (fun _ => nofun) (.watchLock rfl rfl)
  have r := hF.back w' s
  have hr : resizePart E w' s = .ok (s', ()) := by unfold resizePart; rw [h]; rfl
  rw [hr] at r
  have t4 := (run_back (joins := joins) (early := early) r
    (g := { mem := s, ed := .idle, wa := .running (K.call w'), lock := some .watcher, log := log ++ [.resize w'] })
    rfl rfl).1 s' rfl
  have t5 : Steps K joins early
      ({ mem := s', ed := .idle, wa := .unlocking, lock := some .watcher, log := log ++ [.resize w'] } : G K)
      { mem := s', ed := .idle, log := log ++ [.resize w'] } := .one (fun _ => nofun) (.watchUnlock rfl)
  exact ((t2.trans t3).trans t4).trans t5

/-- The command that ends the editing, and `Close`. -/
theorem do_end (hF : Faithful E K) {k : Bytes} {rest : List Ev} {s s' : St} {log : List Op} {r : RLRes}
    (hi : s.input = .key k :: rest) (h : lockedPart E k { s.emit .await with input := rest } = .ok (s', some r)) :
    Steps K true early { mem := s, ed := .idle, log := log }
      { mem := s', ed := .returned (.ok r), wa := .stopping, log := log ++ [.key k] } := by
  have h5 := follow_key (joins := true) (early := early) (K := K)
    (g := { mem := s, ed := .idle, log := log }) rfl rfl hi (fun _ => nofun)
  have h6 := hF.body k { s.emit .await with input := rest }
  rw [h] at h6
  have h7 := (run_body (joins := true) (early := early) h6
    (g := { mem := { s.emit .await with input := rest }, ed := .running (K.enter k),
            lock := some .editor, log := log ++ [.key k] }) rfl rfl (fun _ => nofun)).1 s' (some r) rfl
  have h8 : Steps K true early
      ({ mem := s', ed := .unlocking (some r), lock := some .editor, log := log ++ [.key k] } : G K)
      { mem := s', ed := .closing (.ok r), log := log ++ [.key k] } := .one (fun _ => nofun) (.unlockEnd rfl)
  have h9 : Steps K true early ({ mem := s', ed := .closing (.ok r), log := log ++ [.key k] } : G K)
      { mem := s', ed := .returned (.ok r), wa := .stopping, log := log ++ [.key k] } :=
    .one (fun _ => nofun) (.closeJoin rfl rfl rfl)
  exact ((h5.trans h7).trans h8).trans h9

/-- A session without resizes can be followed by the goroutines. -/
theorem follow (hF : Faithful E K) (hb : BuiltinKeys E) (hn : noResize w.input = w.input) {s : St}
    (h : Reachable E w s) :
    ∃ log, Steps K joins early (G.init K E w) { mem := s, ed := .idle, log := log } ∧
      noResize s.input = s.input := by
  induction h with
  | start h => exact ⟨[], follow_start hF h, by rw [startSt_input h]; exact hn⟩
  | @step s s' h1 h2 ih =>
    obtain ⟨log, hs, hk⟩ := ih
    cases hi : s.input with
    | nil => unfold step at h2; rw [hi] at h2; cases h2
    | cons x rest =>
      rw [hi] at hk
      cases x with
      | resize w => exact absurd hk noResize_resize
      | err e => unfold step at h2; rw [hi] at h2; cases h2
      | key k =>
        have h3 : execCmd E (lookupCommand E k) { s.emit .await with input := rest } = .ok (s', none) := by
          unfold step at h2; rw [hi] at h2; exact h2
        have h4 : lockedPart E k { s.emit .await with input := rest } = .ok (s', none) := by
          rw [execCmd_eq] at h3
          cases hx : lockedPart E k { s.emit .await with input := rest } with
          | error e => rw [hx] at h3; cases h3
          | ok a =>
            rw [hx] at h3
            obtain ⟨t, o⟩ := a
            cases o with
            | none => exact h3
            | some r => injection h3 with h3; cases (Prod.ext_iff.mp h3).2
        refine ⟨log ++ [.key k], hs.trans (do_key hF hi h4), ?_⟩
        have h8 := noResize_cons hk
        obtain ⟨u, hu, -⟩ := exec_merge hb h8 h3
        rw [hu] at h8
        exact (noResize_left h8).2

/-! ## Who holds the lock is inside -/

/-- A panic of the editor. -/
def EdPc.panicked : EdPc K → Prop
  | .closing (.error _) | .returned (.error _) => True
  | _ => False

structure Held (joins : Bool) (g : G K) : Prop where
  watcher : g.lock = some .watcher → (∃ r, g.wa = .running r) ∨ g.wa = .unlocking ∨ ∃ k, g.wa = .crashed k
  editor : g.lock = some .editor → (∃ l, g.ed = .running l) ∨ (∃ o, g.ed = .unlocking o) ∨ g.ed.panicked
  told : joins = true → g.wa = .stopping ∨ g.wa = .stopped → ∃ r, g.ed = .returned r

theorem held_init : Held joins (G.init K E w) :=
  ⟨nofun, nofun, fun _ h => by rcases h with h | h <;> cases h⟩

theorem held_step {g g' : G K} (hx : Excl g) (h : Held joins g) (hs : Step K joins early g g') : Held joins g' := by
  obtain ⟨x1, x2, x3, x4, x5⟩ := hx
  obtain ⟨h1, h2, h3⟩ := h
  cases hs with
  | @closeJoin r _ _ _ => cases r <;> constructor <;> intros <;> simp_all [EdPc.panicked]
  | @closeFree r _ _ => cases r <;> constructor <;> intros <;> simp_all [EdPc.panicked]
  | _ => constructor <;> intros <;> simp_all [EdPc.panicked]

theorem held_steps {g : G K} (h : Steps K joins early (G.init K E w) g) : Held joins g := by
  induction h with
  | refl => exact held_init
  | step h1 _ h2 ih => exact held_step (excl_steps excl_init h1) ih h2

/-! ## Everybody gets out of the mutex -/

theorem Step.alive {g g' : G K} (hs : Step K joins early g g') (h : ∃ k, g.wa = .crashed k) :
    ∃ k, g'.wa = .crashed k := by
  obtain ⟨k, h⟩ := h
  cases hs <;> first | exact ⟨k, h⟩ | simp_all

/-- The callback that runs has an end. -/
theorem Main.back (hF : Faithful E K) {g : G K} (h : Main E w g) {r : K.R} (hr : g.wa = .running r) :
    ∃ y, Runs K.back r g.mem y := by
  obtain ⟨w0, ops, o, s, -, -, h3⟩ := h
  obtain ⟨w', -, -, y, d, h4, -, -⟩ := h3.notEd hr
  have h5 := Runs.io (i := g.mem.input) (p := g.mem.out) (fun a s => hF.blind a s _ _) h4
  rw [← kept_io] at h5
  exact ⟨_, h5⟩

/-- The command that runs has an end. -/
theorem Main.body {g : G K} (h : Main E w g) {l : K.L} (hl : g.ed = .running l) (ha : ∀ k, g.wa ≠ .crashed k) :
    ∃ x, Runs K.body l g.mem x := by
  obtain ⟨w0, ops, o, s, -, -, h3⟩ := h
  obtain ⟨k, -, -, rest, z, p, p', -, h4, -, -⟩ := h3.isEdit hl ha
  exact ⟨_, h4⟩

/-- The editor is where it was and the watcher is out of the mutex, or the program has crashed. -/
def OutOf (g g' : G K) : Prop :=
  (∃ k, g'.wa = .crashed k) ∨ (g'.ed = g.ed ∧ g'.lock = none ∧ g'.wa = .select)

theorem watcher_out (hF : Faithful E K) {g : G K} (hm : Main E w g) (hl : g.lock = some .watcher)
    (hh : Held joins g) : ∃ g', Steps K joins early g g' ∧ OutOf g g' := by
  have hun : ∀ g1 : G K, g1.wa = .unlocking → g1.ed = g.ed →
      ∃ g', Steps K joins early g1 g' ∧ OutOf g g' := fun g1 h1 h2 =>
    ⟨{ g1 with wa := .select, lock := none }, .one (fun k => by rw [h1]; nofun) (.watchUnlock h1), .inr ⟨h2, rfl, rfl⟩⟩
  rcases hh.watcher hl with ⟨r, hr⟩ | hr | hr
  · obtain ⟨y, hy⟩ := hm.back hF hr
    obtain ⟨h1, h2⟩ := run_back (joins := joins) (early := early) hy hr rfl
    cases y with
    | error e => exact ⟨_, h2 e rfl, .inl ⟨_, rfl⟩⟩
    | ok a =>
      obtain ⟨s', ⟨⟩⟩ := a
      have h3 := h1 s' rfl
      obtain ⟨g', h4, h5⟩ := hun { g with wa := .unlocking, mem := s' } rfl rfl
      exact ⟨g', h3.trans h4, h5⟩
  · exact hun g hr rfl
  · exact ⟨g, .refl, .inl hr⟩

/-- Where the goroutine of the editor has nothing more to do than to wait for a key, or has
returned, or the program has panicked. -/
def Settled (g : G K) : Prop :=
  g.ed = .waiting ∨ (∃ r, g.ed = .returned r) ∨ (∃ k, g.ed = .closing (.error k)) ∨ ∃ k, g.wa = .crashed k

theorem settled_idle {g : G K} (h : g.ed = .idle) (ha : ∀ k, g.wa ≠ .crashed k) :
    ∃ g', Steps K joins early g g' ∧ Settled g' :=
  ⟨_, .one ha (.flush h), .inl rfl⟩

theorem settled_start (hF : Faithful E K) {g : G K} {a : K.A} (he : g.ed = .starting a) (ha : ∀ k, g.wa ≠ .crashed k)
    {x : M (St × Unit)} (h : Runs K.start a g.mem x) : ∃ g', Steps K joins early g g' ∧ Settled g' := by
  obtain ⟨h1, h2⟩ := run_start (joins := joins) (early := early) h he rfl ha
  cases x with
  | error e => exact ⟨_, h2 e rfl, .inr (.inr (.inl ⟨_, rfl⟩))⟩
  | ok b =>
    obtain ⟨s', ⟨⟩⟩ := b
    obtain ⟨g', h4, h5⟩ := settled_idle (joins := joins) (early := early) (g := { g with ed := .idle, mem := s' }) rfl ha
    exact ⟨g', (h1 s' rfl).trans h4, h5⟩

/-- The deferred `Close` after a result ends. -/
theorem settled_close (hF : Faithful E K) (hE : OutBlindKeys E) {g : G K} {r : RLRes}
    (he : g.ed = .closing (.ok r)) (hs : Steps K joins false (G.init K E w) g) :
    ∃ g', Steps K joins false g g' ∧ ((∃ k, g'.wa = .crashed k) ∨ g'.ed = .returned (.ok r)) := by
  have hx := excl_steps excl_init hs
  have hh := held_steps hs
  have hi := inv_steps hF hE hs
  have hm : Main E w g := by
    have hi' := hi
    unfold Inv at hi'
    rwa [he, InvAt.main (by trivial)] at hi'
  cases joins with
  | false =>
    by_cases hc : ∃ k, g.wa = .crashed k
    · exact ⟨g, .refl, .inl hc⟩
    · exact ⟨_, .one (fun k hk => hc ⟨k, hk⟩) (.closeFree rfl he), .inr rfl⟩
  | true =>
    have hsel : ∀ g1 : G K, g1.wa = .select → g1.ed = .closing (.ok r) →
        ∃ g', Steps K true false g1 g' ∧ ((∃ k, g'.wa = .crashed k) ∨ g'.ed = .returned (.ok r)) := fun g1 h1 h2 =>
      ⟨_, .one (fun k => by rw [h1]; nofun) (.closeJoin rfl h2 h1), .inr rfl⟩
    have hlk : ∀ g1 : G K, Steps K true false g g1 → g1.lock = some .watcher → g1.ed = .closing (.ok r) →
        ∃ g', Steps K true false g1 g' ∧ ((∃ k, g'.wa = .crashed k) ∨ g'.ed = .returned (.ok r)) := by
      intro g1 h1 h2 h3
      have hi1 := inv_steps hF hE (hs.trans h1)
      have hm1 : Main E w g1 := by
        unfold Inv at hi1
        rwa [h3, InvAt.main (by trivial)] at hi1
      obtain ⟨g', h4, h5⟩ := watcher_out (joins := true) (early := false) hF hm1 h2 (held_steps (hs.trans h1))
      rcases h5 with h5 | ⟨h5, -, h7⟩
      · exact ⟨g', h4, .inl h5⟩
      · obtain ⟨g'', h8, h9⟩ := hsel g' h7 (h5.trans h3)
        exact ⟨g'', h4.trans h8, h9⟩
    cases hl : g.lock with
    | some who =>
      cases who with
      | watcher => exact hlk g .refl hl he
      | editor =>
        rcases hh.editor hl with ⟨l, h⟩ | ⟨o, h⟩ | h
        · rw [h] at he; cases he
        · rw [h] at he; cases he
        · rw [he] at h; cases h
    | none =>
      cases hw : g.wa with
      | select => exact hsel g hw he
      | locking w' =>
        have h1 : Steps K true false g _ := .one (fun k => by rw [hw]; nofun) (.watchLock hw hl)
        obtain ⟨g', h2, h3⟩ := hlk _ h1 rfl he
        exact ⟨g', h1.trans h2, h3⟩
      | running r' => have := hx.wa r' hw; rw [hl] at this; cases this
      | unlocking => have := hx.waUn hw; rw [hl] at this; cases this
      | crashed k => exact ⟨g, .refl, .inl ⟨k, hw⟩⟩
      | stopping => obtain ⟨r', h⟩ := hh.told rfl (.inl hw); rw [h] at he; cases he
      | stopped => obtain ⟨r', h⟩ := hh.told rfl (.inr hw); rw [h] at he; cases he

/-- From every state of every schedule the editor gets to where it waits for a key, has returned or
has panicked. -/
theorem settles (hF : Faithful E K) (hE : OutBlindKeys E) {g : G K}
    (hs : Steps K joins false (G.init K E w) g) : ∃ g', Steps K joins false g g' ∧ Settled g' := by
  have hx := excl_steps excl_init hs
  have hh := held_steps hs
  have hi := inv_steps hF hE hs
  by_cases hc : ∃ k, g.wa = .crashed k
  · exact ⟨g, .refl, .inr (.inr (.inr hc))⟩
  have ha : ∀ k, g.wa ≠ .crashed k := fun k hk => hc ⟨k, hk⟩
  have hmain : g.ed.main → Main E w g := fun h => by
    unfold Inv at hi
    rwa [InvAt.main h] at hi
  have hclose : ∀ g1 : G K, Steps K joins false g g1 → ∀ r, g1.ed = .closing (.ok r) →
      ∃ g', Steps K joins false g1 g' ∧ Settled g' := by
    intro g1 h1 r h2
    obtain ⟨g', h3, h4⟩ := settled_close hF hE h2 (hs.trans h1)
    exact ⟨g', h3, h4.elim (fun h => .inr (.inr (.inr h))) (fun h => .inr (.inl ⟨_, h⟩))⟩
  have hun : ∀ g1 : G K, Steps K joins false g g1 → (∀ k, g1.wa ≠ .crashed k) → ∀ o, g1.ed = .unlocking o →
      ∃ g', Steps K joins false g1 g' ∧ Settled g' := by
    intro g1 h1 ha1 o h2
    cases o with
    | none =>
      obtain ⟨g', h3, h4⟩ := settled_idle (joins := joins) (early := false)
        (g := { g1 with ed := .idle, lock := none }) rfl ha1
      exact ⟨g', (Steps.one ha1 (.unlockGo h2)).trans h3, h4⟩
    | some r =>
      have h3 : Steps K joins false g1 { g1 with ed := .closing (.ok r), lock := none } := .one ha1 (.unlockEnd h2)
      obtain ⟨g', h4, h5⟩ := hclose _ (h1.trans h3) r rfl
      exact ⟨g', h3.trans h4, h5⟩
  have hrun : ∀ g1 : G K, Steps K joins false g g1 → (∀ k, g1.wa ≠ .crashed k) → ∀ l, g1.ed = .running l →
      ∃ g', Steps K joins false g1 g' ∧ Settled g' := by
    intro g1 h1 ha1 l h2
    have hi1 := inv_steps hF hE (hs.trans h1)
    have hm1 : Main E w g1 := by
      unfold Inv at hi1
      rwa [h2, InvAt.main (by trivial)] at hi1
    obtain ⟨x, hx⟩ := hm1.body h2 ha1
    obtain ⟨h3, h4⟩ := run_body (joins := joins) (early := false) hx h2 rfl ha1
    cases x with
    | error e => exact ⟨_, h4 e rfl, .inr (.inr (.inl ⟨_, rfl⟩))⟩
    | ok b =>
      obtain ⟨s', o⟩ := b
      obtain ⟨g', h5, h6⟩ := hun _ (h1.trans (h3 s' o rfl)) ha1 o rfl
      exact ⟨g', (h3 s' o rfl).trans h5, h6⟩
  have hlock : ∀ g1 : G K, Steps K joins false g g1 → (∀ k, g1.wa ≠ .crashed k) → g1.lock = none →
      ∀ k, g1.ed = .locking k → ∃ g', Steps K joins false g1 g' ∧ Settled g' := by
    intro g1 h1 ha1 h2 k h3
    have h4 : Steps K joins false g1 _ := .one ha1 (.lock h3 h2)
    obtain ⟨g', h5, h6⟩ := hrun _ (h1.trans h4) ha1 _ rfl
    exact ⟨g', h4.trans h5, h6⟩
  cases he : g.ed with
  | sizing =>
    unfold Inv at hi
    rw [he] at hi
    have h1 : Steps K joins false g { g with ed := .sized 0 } := .one ha (.size 0 he)
    have h2 : Steps K joins false { g with ed := .sized 0 }
      { g with ed := .starting K.begin, mem := { g.mem with termWidth := 0 } } := .one ha (.assign rfl)
    obtain ⟨g', h3, h4⟩ := settled_start (joins := joins) (early := false) hF
      (g := { g with ed := .starting K.begin, mem := { g.mem with termWidth := 0 } }) rfl ha (hF.start _)
    exact ⟨g', (h1.trans h2).trans h3, h4⟩
  | sized w0 =>
    have h2 : Steps K joins false g
      { g with ed := .starting K.begin, mem := { g.mem with termWidth := w0 } } := .one ha (.assign he)
    obtain ⟨g', h3, h4⟩ := settled_start (joins := joins) (early := false) hF
      (g := { g with ed := .starting K.begin, mem := { g.mem with termWidth := w0 } }) rfl ha (hF.start _)
    exact ⟨g', h2.trans h3, h4⟩
  | starting a =>
    unfold Inv at hi
    rw [he] at hi
    obtain ⟨w0, h1, -, -⟩ := hi
    exact settled_start hF he ha h1
  | idle => exact settled_idle he ha
  | waiting => exact ⟨g, .refl, .inl he⟩
  | locking k =>
    cases hl : g.lock with
    | none => exact hlock g .refl ha hl k he
    | some who =>
      cases who with
      | editor =>
        rcases hh.editor hl with ⟨l, h⟩ | ⟨o, h⟩ | h
        · rw [h] at he; cases he
        · rw [h] at he; cases he
        · rw [he] at h; cases h
      | watcher =>
        obtain ⟨g', h1, h2⟩ := watcher_out (joins := joins) (early := false) hF (hmain (by rw [he]; trivial)) hl hh
        rcases h2 with h2 | ⟨h2, h3, h4⟩
        · exact ⟨g', h1, .inr (.inr (.inr h2))⟩
        · obtain ⟨g'', h5, h6⟩ := hlock g' h1 (fun k => by rw [h4]; nofun) h3 k (h2.trans he)
          exact ⟨g'', h1.trans h5, h6⟩
  | running l => exact hrun g .refl ha l he
  | unlocking o => exact hun g .refl ha o he
  | closing r =>
    cases r with
    | ok r => exact hclose g .refl r he
    | error k => exact ⟨g, .refl, .inr (.inr (.inl ⟨k, he⟩))⟩
  | returned r => exact ⟨g, .refl, .inr (.inl ⟨r, he⟩)⟩

/-! ## After `Close` of tty10 -/

/-- Once the editor has returned the watcher is told, and does nothing more. -/
theorem told_steps {g : G K} (h : Steps K true early (G.init K E w) g) {r : Except PanicKind RLRes}
    (hr : g.ed = .returned r) : g.wa = .stopping ∨ g.wa = .stopped := by
  induction h generalizing r with
  | refl => cases hr
  | @step g1 g2 h1 _ h2 ih =>
    cases h2 with
    | closeFree hj => cases hj
    | chanClosed hj => cases hj
    | closeJoin => exact .inl rfl
    | _ => simp_all

end Readline
