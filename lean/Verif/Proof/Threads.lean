import Verif.Proof.Out
import Verif.Spec.Serial
/-!
# Every schedule is a sequence of whole commands and whole callbacks
-/
namespace Readline
open Spec

variable {E : Env} {w : World} {K : Code} {joins early : Bool}

/-- The code cut into steps is the code of the model: run undisturbed, the pieces do what the model
does; and the steps of the callback neither read keys nor look at the output. -/
structure Faithful (E : Env) (K : Code) : Prop where
  start (s : St) : Runs K.start K.begin s (do let s ← startFrom E s; return (s, ()))
  body (k : Bytes) (s : St) : Runs K.body (K.enter k) s (lockedPart E k s)
  back (w : Int) (s : St) : Runs K.back (K.call w) s (resizePart E w s)
  blind (r : K.R) (s : St) (i : List Ev) (p : List Tok) : K.back r (s.io i p) = under2 i p (K.back r s)

theorem Runs.det {f : α → St → M (St × (α ⊕ β))} {a : α} {s : St} {x y : M (St × β)}
    (h : Runs f a s x) (h' : Runs f a s y) : x = y := by
  induction h with
  | more h1 _ ih =>
    cases h' with
    | more h2 h3 =>
      rw [h1] at h2
      injection h2 with h2
      obtain ⟨rfl, h2⟩ := Prod.ext_iff.mp h2
      injection h2 with h2
      subst h2
      exact ih h3
    | done h2 => rw [h1] at h2; injection h2 with h2; cases (Prod.ext_iff.mp h2).2
    | fail h2 => rw [h1] at h2; cases h2
  | done h1 =>
    cases h' with
    | more h2 h3 => rw [h1] at h2; injection h2 with h2; cases (Prod.ext_iff.mp h2).2
    | done h2 =>
      rw [h1] at h2
      injection h2 with h2
      obtain ⟨rfl, h2⟩ := Prod.ext_iff.mp h2
      injection h2 with h2
      subst h2
      rfl
    | fail h2 => rw [h1] at h2; cases h2
  | fail h1 =>
    cases h' with
    | more h2 h3 => rw [h1] at h2; cases h2
    | done h2 => rw [h1] at h2; cases h2
    | fail h2 => rw [h1] at h2; injection h2 with h2; rw [h2]

theorem Runs.more_inv {f : α → St → M (St × (α ⊕ β))} {a a' : α} {s s' : St} {x : M (St × β)}
    (h : Runs f a s x) (h1 : f a s = .ok (s', .inl a')) : Runs f a' s' x := by
  cases h with
  | more h2 h3 =>
    rw [h1] at h2
    injection h2 with h2
    obtain ⟨rfl, h2⟩ := Prod.ext_iff.mp h2
    injection h2 with h2
    subst h2
    exact h3
  | done h2 => rw [h1] at h2; injection h2 with h2; cases (Prod.ext_iff.mp h2).2
  | fail h2 => rw [h1] at h2; cases h2

theorem Runs.done_inv {f : α → St → M (St × (α ⊕ β))} {a : α} {b : β} {s s' : St} {x : M (St × β)}
    (h : Runs f a s x) (h1 : f a s = .ok (s', .inr b)) : x = .ok (s', b) := h.det (.done h1)

theorem Runs.fail_inv {f : α → St → M (St × (α ⊕ β))} {a : α} {e : Panic} {s : St} {x : M (St × β)}
    (h : Runs f a s x) (h1 : f a s = .error e) : x = .error e := h.det (.fail h1)

theorem Runs.io {f : α → St → M (St × (α ⊕ β))} {i : List Ev} {p : List Tok}
    (hf : ∀ a s, f a (s.io i p) = under2 i p (f a s)) {a : α} {s : St} {x : M (St × β)}
    (h : Runs f a s x) : Runs f a (s.io i p) (under2 i p x) := by
  induction h with
  | more h1 _ ih => exact .more (by rw [hf, h1]; rfl) ih
  | done h1 => exact .done (by rw [hf, h1]; rfl)
  | fail h1 => exact .fail (by rw [hf, h1]; rfl)

/-! ## Mutual exclusion -/

/-- Who is inside the mutex holds the lock. -/
structure Excl (g : G K) : Prop where
  ed (l) : g.ed = .running l → g.lock = some .editor
  edUn (o) : g.ed = .unlocking o → g.lock = some .editor
  wa (r) : g.wa = .running r → g.lock = some .watcher
  waUn : g.wa = .unlocking → g.lock = some .watcher
  waCr (k) : g.wa = .crashed k → g.lock = some .watcher

theorem excl_step {g g' : G K} (h : Excl g) (hs : Step K joins early g g') : Excl g' := by
  obtain ⟨h1, h2, h3, h4, h5⟩ := h
  cases hs <;> constructor <;> intros <;> simp_all

theorem excl_init : Excl (G.init K E w) := by
  constructor <;> intros <;> simp_all [G.init]

theorem excl_steps {g g' : G K} (h : Excl g) (hs : Steps K joins early g g') : Excl g' := by
  induction hs with
  | refl => exact h
  | step _ _ h2 ih => exact excl_step ih h2

/-! ## The order of the locks -/

theorem kept_io (s : St) : s = (kept s).io s.input s.out := by
  simp [kept, St.io]

theorem kept_of_io (s : St) (i : List Ev) (p : List Tok) : kept (s.io i p) = kept s := rfl

theorem seenOut_append (a b : List Tok) : seenOut (a ++ b) = seenOut a ++ seenOut b := List.filter_append ..

/-- The editor inside or outside a command, with what is left of the input. -/
def EdOk (o : Option RLRes) (s : St) (inp : List Ev) : EdPc K → Prop
  | .idle | .waiting => o = none ∧ inp = s.input
  | .locking k => o = none ∧ s.input = .key k :: inp
  | .running _ => o = none
  | .unlocking o' => o = o' ∧ inp = s.input
  | .closing (.ok r) | .returned (.ok r) => o = some r ∨ (o = none ∧ TtyErr s r)
  | _ => False

/-- The callback for the width `w'` that was called in the state `s` has `r` left to do. -/
def Callback (E : Env) (s : St) (w' : Int) (r : K.R) (m : St) : Prop :=
  ∃ y d, Runs K.back r (kept m) y ∧ resizePart E w' (kept s) = under2 [] d y ∧
    seenOut m.out = seenOut s.out ++ seenOut d

/-- The command of the key `k` that was called in the state `s` has `l` left to do. -/
def Command (E : Env) (s : St) (k : Bytes) (l : K.L) (m : St) : Prop :=
  ∃ rest z p p', s.input = .key k :: rest ∧ Runs K.body l m (wroteAll p z) ∧
    lockedPart E k { s.emit .await with input := rest } = wroteAll p' z ∧ seenOut p = seenOut p'

/-- What is going on inside the mutex. -/
inductive Phase (E : Env) (ops : List Op) (s : St) (g : G K) : Prop where
  | rest : g.log = ops → AsIf s g.mem → (∀ l, g.ed ≠ .running l) → (∀ r, g.wa ≠ .running r) →
      (∀ k, g.wa ≠ .crashed k) → Phase E ops s g
  | watch {r w'} : g.wa = .running r → g.log = ops ++ [.resize w'] → (∀ l, g.ed ≠ .running l) →
      Callback E s w' r g.mem → Phase E ops s g
  | edit {l k} : g.ed = .running l → g.log = ops ++ [.key k] → (∀ r, g.wa ≠ .running r) →
      (∀ k, g.wa ≠ .crashed k) → Command E s k l g.mem → Phase E ops s g
  | crash {k w' e} : g.wa = .crashed k → g.log = ops ++ [.resize w'] → onResize E s w' = .error e →
      e.kind = k → Phase E ops s g

/-- After the start and before a panic of the editor. -/
def Main (E : Env) (w : World) (g : G K) : Prop :=
  ∃ w0 ops o s, Serial E { w with termWidth := w0 } ops o s ∧ EdOk o s g.mem.input g.ed ∧ Phase E ops s g

/-- The invariant when the watcher does nothing before the start is over. -/
def InvAt (E : Env) (w : World) (g : G K) : EdPc K → Prop
  | .sizing | .sized _ => g.mem = bufferSt E w ∧ g.wa = .select ∧ g.log = []
  | .starting a => ∃ w0, Runs K.start a g.mem (do let s ← startSt E { w with termWidth := w0 }; return (s, ())) ∧
      g.wa = .select ∧ g.log = []
  | .closing (.error k) | .returned (.error k) => ∃ w0, SerialFails E { w with termWidth := w0 } k
  | _ => Main E w g

def Inv (E : Env) (w : World) (g : G K) : Prop := InvAt E w g g.ed

theorem startFrom_eq (w0 : Int) :
    startFrom E { bufferSt E w with termWidth := w0 } = startSt E { w with termWidth := w0 } := by
  unfold startFrom startSt promptSt bufferSt
  rfl

theorem Callback.quiet {s m m' : St} {w' : Int} {r : K.R} (h : Callback E s w' r m)
    (hk : kept m' = kept m) (ho : seenOut m'.out = seenOut m.out) : Callback E s w' r m' := by
  obtain ⟨y, d, h1, h2, h3⟩ := h
  exact ⟨y, d, by rw [hk]; exact h1, h2, ho.trans h3⟩

/-- A step outside the mutex. -/
theorem Phase.quiet {ops : List Op} {s : St} {g g' : G K} (h : Phase E ops s g) (hl : g'.log = g.log)
    (hm : g'.mem = g.mem ∨ ((∀ l, g.ed ≠ .running l) ∧ kept g'.mem = kept g.mem ∧ seenOut g'.mem.out = seenOut g.mem.out))
    (he : ∀ l, g'.ed = .running l ↔ g.ed = .running l)
    (hw : ∀ r, g'.wa = .running r ↔ g.wa = .running r)
    (hc : ∀ k, g'.wa = .crashed k ↔ g.wa = .crashed k) : Phase E ops s g' := by
  have hm' : (∀ l, g.ed ≠ .running l) → kept g'.mem = kept g.mem ∧ seenOut g'.mem.out = seenOut g.mem.out := by
    intro _
    rcases hm with hm | hm
    · rw [hm]; exact ⟨rfl, rfl⟩
    · exact hm.2
  cases h with
  | rest h1 h2 h3 h4 h5 =>
    obtain ⟨a, b⟩ := hm' h3
    exact .rest (hl.trans h1) ⟨h2.1.trans a.symm, h2.2.trans b.symm⟩ (fun l => mt (he l).mp (h3 l))
      (fun r => mt (hw r).mp (h4 r)) (fun k => mt (hc k).mp (h5 k))
  | watch h1 h2 h3 h4 =>
    obtain ⟨a, b⟩ := hm' h3
    exact .watch ((hw _).mpr h1) (hl.trans h2) (fun l => mt (he l).mp (h3 l)) (h4.quiet a b)
  | edit h1 h2 h3 h4 h5 =>
    have hm2 : g'.mem = g.mem := by
      rcases hm with hm | hm
      · exact hm
      · exact absurd h1 (hm.1 _)
    exact .edit ((he _).mpr h1) (hl.trans h2) (fun r => mt (hw r).mp (h3 r)) (fun k => mt (hc k).mp (h4 k))
      (by rw [hm2]; exact h5)
  | crash h1 h2 h3 h4 => exact .crash ((hc _).mpr h1) (hl.trans h2) h3 h4

theorem kept_emit (s : St) (t : Tok) : kept (s.emit t) = kept s := rfl

theorem seenOut_await (s : St) : seenOut (s.emit .await).out = seenOut s.out := by
  show seenOut (s.out ++ [.await]) = _
  rw [seenOut_append]
  simp [seenOut]

/-- The command begins: the lock was taken. -/
theorem Command.enter (hF : Faithful E K) (hE : OutBlindKeys E) {s m : St} {k : Bytes}
    (hs : AsIf s m) (hi : s.input = .key k :: m.input) : Command (K := K) E s k (K.enter k) m := by
  refine ⟨m.input, lockedPart E k ((kept m).io m.input []), m.out, (s.emit .await).out, hi, ?_, ?_, ?_⟩
  · rw [← lockedPart_out hE k]
    have : ((kept m).io m.input []).wrote m.out = m := by simp [kept, St.io, St.wrote]
    rw [this]
    exact hF.body k m
  · rw [← lockedPart_out hE k]
    congr 1
    have h1 := hs.1
    have h2 : ((kept m).io m.input []).wrote (s.emit .await).out =
        { kept m with input := m.input, out := (s.emit .await).out } := by simp [kept, St.io, St.wrote]
    rw [h2, ← h1]
    rfl
  · rw [seenOut_await]; exact hs.2.symm

/-- The callback begins. -/
theorem Callback.enter (hF : Faithful E K) {s m : St} (w' : Int) (hs : AsIf s m) :
    Callback (K := K) E s w' (K.call w') m := by
  refine ⟨resizePart E w' (kept m), [], hF.back w' _, ?_, ?_⟩
  · rw [hs.1]
    have hio : ∀ s i p, resizePart E w' (s.io i p) = under2 i p (resizePart E w' s) := by
      intro s i p
      unfold resizePart
      rw [onResize_io]
      exact under_bind fun _ => rfl
    have hb := hio (kept m) [] []
    have h0 : (kept m).io [] [] = kept m := rfl
    rw [h0] at hb
    exact hb
  · rw [hs.2]; simp [seenOut]

theorem resizePart_io (w' : Int) (s : St) (i : List Ev) (p : List Tok) :
    resizePart E w' (s.io i p) = under2 i p (resizePart E w' s) := by
  unfold resizePart
  rw [onResize_io]
  exact under_bind fun _ => rfl

/-- The steps of the callback on the state without input and output. -/
theorem back_kept (hF : Faithful E K) (r : K.R) (m : St) :
    K.back r m = under2 m.input m.out (K.back r (kept m)) := by
  rw [← hF.blind, ← kept_io]

theorem back_input (hF : Faithful E K) {r : K.R} {m c : St} {x : K.R ⊕ Unit}
    (h : K.back r (kept m) = .ok (c, x)) : c.input = [] := by
  have h1 := hF.blind r (kept m) [] []
  have h0 : (kept m).io [] [] = kept m := rfl
  rw [h0, h] at h1
  have h2 : c = c.io [] [] := by injection h1 with h1; exact (Prod.ext_iff.mp h1).1
  rw [h2]; rfl

/-- What a step of the callback says about the step on the state without input and output. -/
theorem back_ok (hF : Faithful E K) {r : K.R} {m m' : St} {x : K.R ⊕ Unit} (h : K.back r m = .ok (m', x)) :
    ∃ c, K.back r (kept m) = .ok (c, x) ∧ m' = c.io m.input m.out ∧ c.input = [] := by
  have h1 := back_kept hF r m
  rw [h] at h1
  cases hb : K.back r (kept m) with
  | error e => rw [hb] at h1; cases h1
  | ok a =>
    rw [hb] at h1
    injection h1 with h1
    obtain ⟨h2, h3⟩ := Prod.ext_iff.mp h1
    dsimp only at h2 h3
    obtain ⟨c, y⟩ := a
    subst h3
    exact ⟨c, rfl, h2, back_input hF hb⟩

theorem under_under {i j : List Ev} {p q : List Tok} (x : M (St × α)) :
    under2 j q (under2 i p x) = under2 j (q ++ p) x := by
  cases x with
  | ok a => show Except.ok ((a.1.io i p).io j q, a.2) = _; rw [io_io]; rfl
  | error e => show Except.error (Panic.mk e.kind ((e.st.io i p).io j q)) = _; rw [io_io]; rfl

theorem Callback.more (hF : Faithful E K) {s m m' : St} {w' : Int} {r r' : K.R}
    (h : Callback E s w' r m) (hs : K.back r m = .ok (m', .inl r')) : Callback E s w' r' m' := by
  obtain ⟨y, d, h1, h2, h3⟩ := h
  obtain ⟨c, hc, rfl, hci⟩ := back_ok hF hs
  have h4 := h1.more_inv hc
  obtain ⟨y1, hy1⟩ : ∃ y1, Runs K.back r' (kept c) y1 := by
    have hk : c = (kept c).io c.input c.out := kept_io c
    -- the run on `c` is the shifted run on `kept c`
    clear h1 h2 h3 hs hc
    have key : ∀ {r : K.R} {c : St} {y : M (St × Unit)}, Runs K.back r c y → ∃ y1, Runs K.back r (kept c) y1 := by
      intro r c y hr
      induction hr with
      | @more a a' s s' x h1 _ ih =>
        obtain ⟨c1, hc1, rfl, _⟩ := back_ok hF h1
        obtain ⟨y1, hy1⟩ := ih
        rw [kept_of_io] at hy1
        have h5 := Runs.io (i := c1.input) (p := c1.out) (fun a s => hF.blind a s _ _) hy1
        rw [← kept_io] at h5
        exact ⟨_, .more hc1 h5⟩
      | done h1 =>
        obtain ⟨c1, hc1, _, _⟩ := back_ok hF h1
        exact ⟨_, .done hc1⟩
      | @fail a s e h1 =>
        cases hb : K.back a (kept s) with
        | ok z =>
          have := back_kept hF a s
          rw [hb, h1] at this
          cases this
        | error e' => exact ⟨_, .fail hb⟩
    exact key h4
  have h5 : y = under2 [] c.out y1 := by
    have h6 := Runs.io (i := c.input) (p := c.out) (fun a s => hF.blind a s _ _) hy1
    rw [← kept_io] at h6
    rw [h4.det h6, hci]
  refine ⟨y1, d ++ c.out, hy1, by rw [h2, h5, under_under], ?_⟩
  show seenOut (m.out ++ c.out) = _
  rw [seenOut_append, h3, seenOut_append, List.append_assoc]

theorem Callback.done (hF : Faithful E K) {s m m' : St} {w' : Int} {r : K.R}
    (h : Callback E s w' r m) (hs : K.back r m = .ok (m', .inr ())) :
    ∃ s', onResize E s w' = .ok s' ∧ AsIf s' m' ∧ s'.input = s.input ∧ m'.input = m.input := by
  obtain ⟨y, d, h1, h2, h3⟩ := h
  obtain ⟨c, hc, rfl, hci⟩ := back_ok hF hs
  have h4 := h1.done_inv hc
  subst h4
  have h5 := resizePart_io (E := E) w' (kept s) s.input s.out
  rw [← kept_io, h2, under_under] at h5
  have h6 : onResize E s w' = .ok (c.io s.input (s.out ++ d)) := by
    unfold resizePart at h5
    cases ho : onResize E s w' with
    | error e => rw [ho] at h5; cases h5
    | ok t =>
      rw [ho] at h5
      injection h5 with h5
      have h7 : t = c.io s.input (s.out ++ d) := (Prod.ext_iff.mp h5).1
      rw [h7]
  refine ⟨_, h6, ⟨rfl, ?_⟩, rfl, rfl⟩
  show seenOut (s.out ++ d ++ c.out) = seenOut (m.out ++ c.out)
  rw [seenOut_append, seenOut_append, seenOut_append, h3]

theorem Callback.fail (hF : Faithful E K) {s m : St} {w' : Int} {r : K.R} {e : Panic}
    (h : Callback E s w' r m) (hs : K.back r m = .error e) :
    ∃ e', onResize E s w' = .error e' ∧ e'.kind = e.kind := by
  obtain ⟨y, d, h1, h2, h3⟩ := h
  have hb := back_kept hF r m
  rw [hs] at hb
  cases hk : K.back r (kept m) with
  | ok z => rw [hk] at hb; cases hb
  | error e1 =>
    rw [hk] at hb
    injection hb with hb
    have h4 := h1.fail_inv hk
    subst h4
    have h5 := resizePart_io (E := E) w' (kept s) s.input s.out
    rw [← kept_io, h2, under_under] at h5
    unfold resizePart at h5
    cases ho : onResize E s w' with
    | ok t => rw [ho] at h5; cases h5
    | error e2 =>
      rw [ho] at h5
      injection h5 with h5
      refine ⟨e2, rfl, ?_⟩
      rw [h5, hb]

theorem Command.more {s m m' : St} {k : Bytes} {l l' : K.L} (h : Command E s k l m)
    (hs : K.body l m = .ok (m', .inl l')) : Command E s k l' m' := by
  obtain ⟨rest, z, p, p', h1, h2, h3, h4⟩ := h
  exact ⟨rest, z, p, p', h1, h2.more_inv hs, h3, h4⟩

theorem Command.done {s m m' : St} {k : Bytes} {l : K.L} {o : Option RLRes} (h : Command E s k l m)
    (hs : K.body l m = .ok (m', .inr o)) :
    ∃ rest s', s.input = .key k :: rest ∧ lockedPart E k { s.emit .await with input := rest } = .ok (s', o) ∧
      AsIf s' m' ∧ m'.input = s'.input := by
  obtain ⟨rest, z, p, p', h1, h2, h3, h4⟩ := h
  have h5 := h2.done_inv hs
  cases z with
  | error e => cases h5
  | ok a =>
    injection h5 with h5
    obtain ⟨h6, h7⟩ := Prod.ext_iff.mp h5
    dsimp only at h6 h7
    subst h7
    refine ⟨rest, _, h1, h3, ⟨?_, ?_⟩, ?_⟩
    · rw [← h6]; rfl
    · rw [← h6]
      show seenOut (p' ++ a.1.out) = seenOut (p ++ a.1.out)
      rw [seenOut_append, seenOut_append, h4]
    · rw [← h6]; rfl

theorem Command.fail {s m : St} {k : Bytes} {l : K.L} {e : Panic} (h : Command E s k l m)
    (hs : K.body l m = .error e) :
    ∃ rest e', s.input = .key k :: rest ∧ lockedPart E k { s.emit .await with input := rest } = .error e' ∧
      e'.kind = e.kind := by
  obtain ⟨rest, z, p, p', h1, h2, h3, h4⟩ := h
  have h5 := h2.fail_inv hs
  cases z with
  | ok a => cases h5
  | error e1 =>
    injection h5 with h5
    refine ⟨rest, _, h1, h3, ?_⟩
    rw [← h5]

/-! ## The invariant -/

theorem EdOk.inputs {o : Option RLRes} {s s' : St} {i : List Ev} {pc : EdPc K} (h : EdOk o s i pc)
    (hs : s'.input = s.input) : EdOk o s' i pc := by
  unfold EdOk at *
  unfold TtyErr at *
  rw [hs]
  exact h

theorem inv_init : Inv E w (G.init K E w) := ⟨rfl, rfl, rfl⟩

theorem Phase.notEd {ops : List Op} {s : St} {g : G K} (h : Phase E ops s g) {r : K.R} (hw : g.wa = .running r) :
    ∃ w', g.log = ops ++ [.resize w'] ∧ (∀ l, g.ed ≠ .running l) ∧ Callback E s w' r g.mem := by
  cases h with
  | rest _ _ _ h4 => exact absurd hw (h4 _)
  | watch h1 h2 h3 h4 =>
    rw [h1] at hw
    injection hw with hw
    subst hw
    exact ⟨_, h2, h3, h4⟩
  | edit _ _ h3 => exact absurd hw (h3 _)
  | crash h1 => rw [h1] at hw; cases hw

theorem Phase.isEdit {ops : List Op} {s : St} {g : G K} (h : Phase E ops s g) {l : K.L} (hl : g.ed = .running l)
    (ha : ∀ k, g.wa ≠ .crashed k) :
    ∃ k, g.log = ops ++ [.key k] ∧ (∀ r, g.wa ≠ .running r) ∧ Command E s k l g.mem := by
  cases h with
  | rest _ _ h3 => exact absurd hl (h3 _)
  | watch _ _ h3 => exact absurd hl (h3 _)
  | edit h1 h2 h3 h4 h5 =>
    rw [h1] at hl
    injection hl with hl
    subst hl
    exact ⟨_, h2, h3, h5⟩
  | crash h1 => exact absurd h1 (ha _)

theorem Phase.isRest {ops : List Op} {s : St} {g : G K} (h : Phase E ops s g) (hl : ∀ l, g.ed ≠ .running l)
    (hw : ∀ r, g.wa ≠ .running r) (ha : ∀ k, g.wa ≠ .crashed k) : g.log = ops ∧ AsIf s g.mem := by
  cases h with
  | rest h1 h2 => exact ⟨h1, h2⟩
  | watch h1 => exact absurd h1 (hw _)
  | edit h1 => exact absurd h1 (hl _)
  | crash h1 => exact absurd h1 (ha _)

/-- The pcs for which the invariant is `Main`. -/
def EdPc.main : EdPc K → Prop
  | .idle | .waiting | .locking _ | .running _ | .unlocking _ | .closing (.ok _) | .returned (.ok _) => True
  | _ => False

theorem InvAt.main {g : G K} {pc : EdPc K} (hm : pc.main) : InvAt E w g pc = Main E w g := by
  cases pc with
  | closing r => cases r with | ok r => rfl | error k => cases hm
  | returned r => cases r with | ok r => rfl | error k => cases hm
  | sizing => cases hm
  | sized => cases hm
  | starting => cases hm
  | _ => rfl

/-- A step of the watcher outside the mutex. -/
theorem Main.quiet {g g' : G K} (h : Main E w g) (hl : g'.log = g.log) (hm : g'.mem = g.mem) (he : g'.ed = g.ed)
    (hw : ∀ r, g'.wa = .running r ↔ g.wa = .running r)
    (hc : ∀ k, g'.wa = .crashed k ↔ g.wa = .crashed k) : Main E w g' := by
  obtain ⟨w0, ops, o, s, h1, h2, h3⟩ := h
  exact ⟨w0, ops, o, s, h1, by rw [he, hm]; exact h2,
    h3.quiet hl (.inl hm) (fun l => by rw [he]) hw hc⟩

/-- A step of the watcher. -/
theorem InvAt.watcher {g g' : G K} (hi : InvAt E w g g.ed) (he : g'.ed = g.ed)
    (h0 : g.wa = .select → g.ed.started) (hq : Main E w g → Main E w g') : InvAt E w g' g'.ed := by
  rw [he]
  revert hi h0
  generalize g.ed = pc
  intro hi h0
  cases pc with
  | sizing => exact (h0 hi.2.1).elim
  | sized => exact (h0 hi.2.1).elim
  | starting => obtain ⟨_, _, h2, _⟩ := hi; exact (h0 h2).elim
  | closing r => cases r with | ok r => exact hq hi | error k => exact hi
  | returned r => cases r with | ok r => exact hq hi | error k => exact hi
  | _ => exact hq hi

theorem inv_step (hF : Faithful E K) (hE : OutBlindKeys E) {g g' : G K} (hx : Excl g)
    (hi : Inv E w g) (ha : ∀ k, g.wa ≠ .crashed k) (hs : Step K joins false g g') : Inv E w g' := by
  unfold Inv at hi ⊢
  cases hs with
  | size w0 h => rw [h] at hi; exact hi
  | @assign w0 h =>
    rw [h] at hi
    obtain ⟨h1, h2, h3⟩ := hi
    refine ⟨w0, ?_, h2, h3⟩
    rw [← startFrom_eq, ← h1]
    exact hF.start _
  | startMore h h' =>
    rw [h] at hi
    obtain ⟨w0, h1, h2, h3⟩ := hi
    exact ⟨w0, h1.more_inv h', h2, h3⟩
  | @startDone a s h h' =>
    rw [h] at hi
    obtain ⟨w0, h1, h2, h3⟩ := hi
    have h4 := h1.done_inv h'
    have h5 : startSt E { w with termWidth := w0 } = .ok s := by
      cases hst : startSt E { w with termWidth := w0 } with
      | error e => rw [hst] at h4; cases h4
      | ok t =>
        rw [hst] at h4
        injection h4 with h4
        have h6 : t = s := (Prod.ext_iff.mp h4).1
        rw [h6]
    exact ⟨w0, [], none, s, .start h5, ⟨rfl, rfl⟩,
      .rest h3 ⟨rfl, rfl⟩ (fun _ => nofun) (fun _ => by dsimp only; rw [h2]; nofun) (fun _ => by dsimp only; rw [h2]; nofun)⟩
  | @startFail a e h h' =>
    rw [h] at hi
    obtain ⟨w0, h1, h2, h3⟩ := hi
    have h4 := h1.fail_inv h'
    refine ⟨w0, .start (e := e) ?_ rfl⟩
    cases hst : startSt E { w with termWidth := w0 } with
    | error e' =>
      rw [hst] at h4
      injection h4 with h4
      rw [h4]
    | ok t => rw [hst] at h4; cases h4
  | flush h =>
    rw [h] at hi
    obtain ⟨w0, ops, o, s, h1, h2, h3⟩ := hi
    rw [h] at h2
    refine ⟨w0, ops, o, s, h1, h2, h3.quiet rfl (.inr ⟨fun l => by rw [h]; nofun, rfl, seenOut_await _⟩)
      (fun l => by rw [h]; exact ⟨nofun, nofun⟩) (fun _ => Iff.rfl) (fun _ => Iff.rfl)⟩
  | @take k rest h h' =>
    rw [h] at hi
    obtain ⟨w0, ops, o, s, h1, h2, h3⟩ := hi
    rw [h] at h2
    refine ⟨w0, ops, o, s, h1, ⟨h2.1, by rw [← h2.2, h']⟩, h3.quiet rfl (.inr ⟨fun l => by rw [h]; nofun, rfl, rfl⟩)
      (fun l => by rw [h]; exact ⟨nofun, nofun⟩) (fun _ => Iff.rfl) (fun _ => Iff.rfl)⟩
  | @takeErr e rest h h' =>
    rw [h] at hi
    obtain ⟨w0, ops, o, s, h1, h2, h3⟩ := hi
    rw [h] at h2
    refine ⟨w0, ops, o, s, h1, .inr ⟨h2.1, .inr ⟨e, rest, by rw [← h2.2, h'], rfl⟩⟩,
      h3.quiet rfl (.inr ⟨fun l => by rw [h]; nofun, rfl, rfl⟩)
      (fun l => by rw [h]; exact ⟨nofun, nofun⟩) (fun _ => Iff.rfl) (fun _ => Iff.rfl)⟩
  | takeEof h h' =>
    rw [h] at hi
    obtain ⟨w0, ops, o, s, h1, h2, h3⟩ := hi
    rw [h] at h2
    refine ⟨w0, ops, o, s, h1, .inr ⟨h2.1, .inl ⟨by rw [← h2.2, h'], rfl⟩⟩,
      h3.quiet rfl (.inl rfl)
      (fun l => by rw [h]; exact ⟨nofun, nofun⟩) (fun _ => Iff.rfl) (fun _ => Iff.rfl)⟩
  | @lock k h h' =>
    rw [h] at hi
    obtain ⟨w0, ops, o, s, h1, h2, h3⟩ := hi
    rw [h] at h2
    have hw : ∀ r, g.wa ≠ .running r := fun r hr => by have := hx.wa r hr; rw [h'] at this; cases this
    obtain ⟨h4, h5⟩ := h3.isRest (fun l => by rw [h]; nofun) hw ha
    exact ⟨w0, ops, o, s, h1, h2.1, .edit rfl (by rw [h4]) hw ha (.enter hF hE h5 h2.2)⟩
  | more h h' =>
    rw [h] at hi
    obtain ⟨w0, ops, o, s, h1, h2, h3⟩ := hi
    obtain ⟨k, h4, h5, h6⟩ := h3.isEdit h ha
    rw [h] at h2
    exact ⟨w0, ops, o, s, h1, h2, .edit rfl h4 h5 ha (h6.more h')⟩
  | @done l o' m h h' =>
    rw [h] at hi
    obtain ⟨w0, ops, o, s, h1, h2, h3⟩ := hi
    obtain ⟨k, h4, h5, h6⟩ := h3.isEdit h ha
    rw [h] at h2
    obtain ⟨rest, s', h7, h8, h9, h10⟩ := h6.done h'
    have ho : o = none := h2
    subst ho
    exact ⟨w0, _, o', s', .key h1 h7 h8, ⟨rfl, h10⟩, .rest h4 h9 (fun _ => nofun) h5 ha⟩
  | @fail l e h h' =>
    rw [h] at hi
    obtain ⟨w0, ops, o, s, h1, h2, h3⟩ := hi
    obtain ⟨k, h4, h5, h6⟩ := h3.isEdit h ha
    rw [h] at h2
    obtain ⟨rest, e', h7, h8, h9⟩ := h6.fail h'
    have ho : o = none := h2
    subst ho
    exact ⟨w0, .key h1 h7 h8 h9⟩
  | unlockGo h =>
    rw [h] at hi
    obtain ⟨w0, ops, o, s, h1, h2, h3⟩ := hi
    rw [h] at h2
    exact ⟨w0, ops, o, s, h1, h2, h3.quiet rfl (.inl rfl)
      (fun l => by rw [h]; exact ⟨nofun, nofun⟩) (fun _ => Iff.rfl) (fun _ => Iff.rfl)⟩
  | unlockEnd h =>
    rw [h] at hi
    obtain ⟨w0, ops, o, s, h1, h2, h3⟩ := hi
    rw [h] at h2
    exact ⟨w0, ops, o, s, h1, .inl h2.1, h3.quiet rfl (.inl rfl)
      (fun l => by rw [h]; exact ⟨nofun, nofun⟩) (fun _ => Iff.rfl) (fun _ => Iff.rfl)⟩
  | @closeJoin r _ h h' =>
    rw [h] at hi
    cases r with
    | error k => exact hi
    | ok r =>
      obtain ⟨w0, ops, o, s, h1, h2, h3⟩ := hi
      rw [h] at h2
      exact ⟨w0, ops, o, s, h1, h2, h3.quiet rfl (.inl rfl)
        (fun l => by rw [h]; exact ⟨nofun, nofun⟩) (fun _ => by rw [h']; exact ⟨nofun, nofun⟩)
        (fun _ => by rw [h']; exact ⟨nofun, nofun⟩)⟩
  | @closeFree r _ h =>
    rw [h] at hi
    cases r with
    | error k => exact hi
    | ok r =>
      obtain ⟨w0, ops, o, s, h1, h2, h3⟩ := hi
      rw [h] at h2
      exact ⟨w0, ops, o, s, h1, h2, h3.quiet rfl (.inl rfl)
        (fun l => by rw [h]; exact ⟨nofun, nofun⟩) (fun _ => Iff.rfl) (fun _ => Iff.rfl)⟩
  | tick w' h0 h =>
    have h0 := h0 rfl
    have hq : Main E w g → Main E w { g with wa := .locking w' } := fun hm =>
      hm.quiet rfl rfl rfl (fun _ => by rw [h]; exact ⟨nofun, nofun⟩) (fun _ => by rw [h]; exact ⟨nofun, nofun⟩)
    exact hi.watcher rfl (fun _ => h0) hq
  | @watchLock w' h h' =>
    have hq : (∀ l, g.ed ≠ .running l) → Main E w g →
        Main E w { g with wa := .running (K.call w'), lock := some .watcher, log := g.log ++ [.resize w'] } := by
      intro hl hm
      obtain ⟨w0, ops, o, s, h1, h2, h3⟩ := hm
      obtain ⟨h4, h5⟩ := h3.isRest hl (fun r => by rw [h]; nofun) ha
      exact ⟨w0, ops, o, s, h1, h2, .watch rfl (by rw [h4]) hl (.enter hF w' h5)⟩
    have hl : ∀ l, g.ed ≠ .running l := fun l hr => by have := hx.ed l hr; rw [h'] at this; cases this
    have hq := hq hl
    exact hi.watcher rfl (fun h2 => by rw [h] at h2; cases h2) hq
  | @watchMore r r' m h h' =>
    have hq : Main E w g → Main E w { g with wa := .running r', mem := m } := by
      intro hm
      obtain ⟨w0, ops, o, s, h1, h2, h3⟩ := hm
      obtain ⟨w', h4, h5, h6⟩ := h3.notEd h
      refine ⟨w0, ops, o, s, h1, ?_, .watch rfl h4 h5 (h6.more hF h')⟩
      obtain ⟨c, _, rfl, _⟩ := back_ok hF h'
      exact h2
    exact hi.watcher rfl (fun h2 => by rw [h] at h2; cases h2) hq
  | @watchDone r m h h' =>
    have hq : Main E w g → Main E w { g with wa := .unlocking, mem := m } := by
      intro hm
      obtain ⟨w0, ops, o, s, h1, h2, h3⟩ := hm
      obtain ⟨w', h4, h5, h6⟩ := h3.notEd h
      obtain ⟨s', h7, h8, h9, h10⟩ := h6.done hF h'
      refine ⟨w0, _, o, s', .resize h1 h7, ?_, .rest h4 h8 h5 (fun _ => nofun) (fun _ => nofun)⟩
      have h11 := h2.inputs h9
      show EdOk o s' m.input g.ed
      rw [h10]
      exact h11
    exact hi.watcher rfl (fun h2 => by rw [h] at h2; cases h2) hq
  | @watchFail r e h h' =>
    have hq : Main E w g → Main E w { g with wa := .crashed e.kind, mem := e.st } := by
      intro hm
      obtain ⟨w0, ops, o, s, h1, h2, h3⟩ := hm
      obtain ⟨w', h4, h5, h6⟩ := h3.notEd h
      obtain ⟨e', h7, h8⟩ := h6.fail hF h'
      refine ⟨w0, ops, o, s, h1, ?_, .crash rfl h4 h7 h8⟩
      have h9 : e.st.input = g.mem.input := by
        have h10 := back_kept hF r g.mem
        rw [h'] at h10
        cases hk : K.back r (kept g.mem) with
        | ok z => rw [hk] at h10; cases h10
        | error e1 =>
          rw [hk] at h10
          injection h10 with h10
          rw [h10]
          rfl
      show EdOk o s e.st.input g.ed
      rw [h9]
      exact h2
    exact hi.watcher rfl (fun h2 => by rw [h] at h2; cases h2) hq
  | watchUnlock h =>
    have hq : Main E w g → Main E w { g with wa := .select, lock := none } := fun hm =>
      hm.quiet rfl rfl rfl (fun _ => by rw [h]; exact ⟨nofun, nofun⟩) (fun _ => by rw [h]; exact ⟨nofun, nofun⟩)
    exact hi.watcher rfl (fun h2 => by rw [h] at h2; cases h2) hq
  | stop h =>
    have hq : Main E w g → Main E w { g with wa := .stopped } := fun hm =>
      hm.quiet rfl rfl rfl (fun _ => by rw [h]; exact ⟨nofun, nofun⟩) (fun _ => by rw [h]; exact ⟨nofun, nofun⟩)
    exact hi.watcher rfl (fun h2 => by rw [h] at h2; cases h2) hq
  | chanClosed _ h0 h =>
    have hq : Main E w g → Main E w { g with wa := .stopped } := fun hm =>
      hm.quiet rfl rfl rfl (fun _ => by rw [h]; exact ⟨nofun, nofun⟩) (fun _ => by rw [h]; exact ⟨nofun, nofun⟩)
    refine hi.watcher rfl (fun _ => ?_) hq
    revert h0
    generalize g.ed = pc
    intro h0
    cases pc with
    | returned r => trivial
    | _ => cases h0

theorem inv_steps (hF : Faithful E K) (hE : OutBlindKeys E) {g : G K}
    (hs : Steps K joins false (G.init K E w) g) : Inv E w g := by
  induction hs with
  | refl => exact inv_init
  | step h ha h2 ih => exact inv_step hF hE (excl_steps excl_init h) ih ha h2

end Readline
