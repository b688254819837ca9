import Verif.Model.Memory
import Verif.Proof.Slice
/-!
# The list is enough

As long as no slice reaches beyond the length of the line, the editor with its memory does what the editor
with lists does.
-/
namespace Readline

/-- The run with memory does what the run with lists does, unless the latter stops at a slice beyond the
length of the line. -/
def Matches (R : α → β → Prop) (x : HM α) (y : M β) : Prop :=
  match y with
  | .ok b => ∃ a, x = .ok a ∧ R a b
  | .error e => e.kind = .stale ∨ ∃ m, x = .error (.go e.kind, m)

/-- The memory belongs to the state. -/
def Holds (m : Mem) (s : St) : Prop := m.st = s

/-- The same with a value beside. -/
def HoldsBoth (a : Mem × β) (b : St × β) : Prop := a.1.st = b.1 ∧ a.2 = b.2

theorem Matches.bind {R : α → β → Prop} {S : γ → δ → Prop} {x : HM α} {y : M β} {f : α → HM γ} {g : β → M δ}
    (h : Matches R x y) (k : ∀ a b, R a b → Matches S (f a) (g b)) : Matches S (x >>= f) (y >>= g) := by
  cases y with
  | ok b =>
    obtain ⟨a, rfl, hr⟩ := h
    exact k a b hr
  | error e =>
    rcases h with h | ⟨m, rfl⟩
    · exact Or.inl h
    · exact Or.inr ⟨m, rfl⟩

/-- The same, with what was computed before at hand. -/
theorem Matches.bindOk {R : α → β → Prop} {S : γ → δ → Prop} {x : HM α} {y : M β} {f : α → HM γ} {g : β → M δ}
    (h : Matches R x y) (k : ∀ a b, x = .ok a → y = .ok b → R a b → Matches S (f a) (g b)) :
    Matches S (x >>= f) (y >>= g) := by
  cases y with
  | ok b =>
    obtain ⟨a, rfl, hr⟩ := h
    exact k a b rfl rfl hr
  | error e =>
    rcases h with h | ⟨m, rfl⟩
    · exact Or.inl h
    · exact Or.inr ⟨m, rfl⟩

theorem Matches.pure {R : α → β → Prop} {a : α} {b : β} (h : R a b) :
    Matches R (Pure.pure a : HM α) (Pure.pure b : M β) := ⟨a, rfl, h⟩

theorem Matches.run (m : Mem) (x : M α) : Matches Eq (m.run x) x := by
  cases x with
  | ok a => exact ⟨a, rfl, rfl⟩
  | error e => exact Or.inr ⟨_, rfl⟩

theorem Matches.error {R : α → β → Prop} (k : PanicKind) (m : Mem) (s : St) :
    Matches R (.error (.go k, m) : HM α) (.error ⟨k, s⟩ : M β) := Or.inr ⟨m, rfl⟩

/-- A slice of the line. -/
theorem slice_matches {m : Mem} {s s' : St} (h : m.st = s') (lo hi : Int) :
    Matches (fun a b => a = b.map some) (memSlice m lo hi) (slice s s'.buf lo hi) := by
  subst h
  have hl : m.array.length = m.st.buf.length + m.spare.length := by simp [Mem.array]
  by_cases h1 : 0 ≤ lo ∧ lo ≤ hi
  · by_cases h2 : hi ≤ (m.st.buf.length : Int)
    · unfold slice memSlice
      rw [if_pos h1, if_pos h2, if_pos ⟨h1.1, h1.2, by rw [hl]; omega⟩]
      refine ⟨_, rfl, ?_⟩
      have h3 : hi.toNat ≤ m.st.buf.length := by omega
      unfold Mem.array
      rw [List.take_append_of_le_length (by simpa using h3), ← List.map_take, ← List.map_drop]
    · unfold slice
      rw [if_pos h1, if_neg h2]
      exact Or.inl rfl
  · unfold slice memSlice
    rw [if_neg h1, if_neg fun h => h1 ⟨h.1, h.2.1⟩]
    exact Or.inr ⟨m, rfl⟩

theorem live_some (m : Mem) (cs : List Cell) : liveCells m (cs.map some) = .ok cs := by
  induction cs with
  | nil => rfl
  | cons c cs ih =>
    show (do let rest ← liveCells m (cs.map some); return c :: rest) = _
    rw [ih]
    rfl

theorem live_matches {m : Mem} {a : List (Option Cell)} {b : List Cell} (h : a = b.map some) :
    liveCells m a = .ok b := by rw [h]; exact live_some m b

theorem width_matches {E : Env} {m : Mem} {s : St} (h : m.st = s) (lo hi : Int) :
    Matches Eq (memWidth E m lo hi) (widthBetween E s lo hi) := by
  unfold memWidth widthBetween
  refine (slice_matches h lo hi).bind fun a b hr => ?_
  rw [live_matches hr]
  exact ⟨_, rfl, rfl⟩

theorem sub_matches {m : Mem} {s : St} (h : m.st = s) (lo hi : Int) :
    Matches Eq (memSub m lo hi) (subString s lo hi) := by
  unfold memSub subString
  refine (slice_matches h lo hi).bind fun a b hr => ?_
  rw [live_matches hr]
  exact ⟨_, rfl, rfl⟩

theorem insert_matches {G : Grow} {m : Mem} {s : St} (h : m.st = s) (pos : Int) (cs : List Cell) :
    Matches (fun m' b => m'.st = { s with buf := b }) (memInsert G m pos cs) (bufInsert s pos cs) := by
  subst h
  unfold memInsert
  have h := Matches.run m (bufInsert m.st pos cs)
  cases hb : bufInsert m.st pos cs with
  | ok b => exact ⟨_, by rw [Mem.run]; rfl, rfl⟩
  | error e => exact Or.inr ⟨_, by rw [Mem.run]; rfl⟩

theorem delete_matches {m : Mem} {s : St} (h : m.st = s) (pos : Int) (n : Nat) :
    Matches (fun m' b => m'.st = { s with buf := b }) (memDelete m pos n) (bufDelete s pos n) := by
  subst h
  unfold memDelete
  cases hb : bufDelete m.st pos n with
  | ok b => exact ⟨_, by rw [Mem.run]; rfl, rfl⟩
  | error e => exact Or.inr ⟨_, by rw [Mem.run]; rfl⟩

theorem insertString_matches {E : Env} {G : Grow} {m : Mem} {s : St} (h : m.st = s) (pos : Int) (t : Bytes) :
    Matches HoldsBoth (memInsertString E G m pos t) (insertString E s pos t) := by
  subst h
  unfold memInsertString insertString insertCells
  simp only [bind_assoc, pure_bind]
  refine (insert_matches (G := G) rfl pos _).bind fun a b hr => ?_
  refine ⟨_, rfl, ?_, rfl⟩
  show ({ a.st with undoes := _ } : St) = _
  rw [hr]

theorem deleteCells_matches {E : Env} {m : Mem} {s : St} (h : m.st = s) (pos n : Int) :
    Matches HoldsBoth (memDeleteCells E m pos n) (deleteCells E s pos n) := by
  subst h
  unfold memDeleteCells deleteCells
  split
  · exact ⟨_, rfl, rfl, rfl⟩
  · rename_i hn
    have hs := slice_matches (m := m) (s := m.st) rfl pos (pos + n)
    cases hd : slice m.st m.st.buf pos (pos + n) with
    | error e =>
      rw [hd] at hs
      rcases hs with hs | ⟨m', hs⟩
      · exact Or.inl hs
      · refine Or.inr ⟨m', ?_⟩
        unfold memSub
        rw [hs]
        rfl
    | ok del =>
      rw [hd] at hs
      obtain ⟨a, ha, hr⟩ := hs
      have h1 : memSub m pos (pos + n) = .ok (cell2string del) := by
        unfold memSub
        rw [ha]
        show (do let cs ← liveCells m a; return cell2string cs) = _
        rw [live_matches hr]
        rfl
      have h2 : ∀ m' : Mem, m'.st.buf = m.st.buf → m'.spare = m.spare →
          memWidth E m' pos (pos + n) = .ok (cellsWidth E.cfg del) := by
        intro m' e1 e2
        have h3 : memSlice m' pos (pos + n) = .ok a := by
          have : m'.array = m.array := by unfold Mem.array; rw [e1, e2]
          unfold memSlice at ha ⊢
          rw [this]
          split at ha
          · rename_i h; rw [if_pos h]; exact ha
          · cases ha
        unfold memWidth
        rw [h3]
        show (do let cs ← liveCells m' a; return cellsWidth E.cfg cs) = _
        rw [live_matches hr]
        rfl
      let m' : Mem := { m with st := { m.st with undoes := { pos := pos, del := 0, text := cell2string del } :: m.st.undoes } }
      have h4 := h2 m' rfl rfl
      rw [h1]
      show Matches HoldsBoth (do
        let w ← memWidth E m' pos (pos + n)
        let m ← memDelete m' pos n.toNat
        return (m, w)) (do
        let b ← bufDelete m'.st pos n.toNat
        return ({ m'.st with buf := b }, cellsWidth E.cfg del))
      rw [h4]
      refine (delete_matches (m := m') rfl pos n.toNat).bind fun a b hr => ?_
      exact ⟨_, rfl, hr, rfl⟩

theorem wordTopLoop_some (d : List Rune) (cs : List Cell) (i t : Int) (q : Rune) :
    memWordTopLoop d (cs.map some) i t q = wordTopLoop d cs i t q := by
  induction cs generalizing i t q with
  | nil => rfl
  | cons c cs ih =>
    simp only [List.map_cons, memWordTopLoop, wordTopLoop, Option.bind_some]
    split <;> rename_i hc <;> simp only [hc, ih]

theorem wordTop_matches {E : Env} {m : Mem} {s : St} (h : m.st = s) :
    Matches Eq (memWordTop E m) (currentWordTop E s) := by
  subst h
  unfold memWordTop currentWordTop
  refine (slice_matches rfl 0 _).bind fun a b hr => ?_
  subst hr
  rw [wordTopLoop_some]
  exact ⟨_, rfl, rfl⟩

theorem putsLoop_matches {cs : List Cell} {col : Color} {m : Mem} {s : St} (h : m.st = s) :
    Matches HoldsBoth (memPutsLoop (cs.map some) col m) (putsLoop cs col s) := by
  induction cs generalizing col m s with
  | nil => exact ⟨_, rfl, h, rfl⟩
  | cons c cs ih =>
    subst h
    simp only [List.map_cons, memPutsLoop, putsLoop]
    refine (Matches.run m _).bind fun a b hr => ?_
    subst hr
    exact ih rfl

theorem puts_matches {E : Env} {m : Mem} {s : St} (h : m.st = s) (lo hi : Int) :
    Matches Holds (memPuts E m lo hi) (puts E s lo hi) := by
  subst h
  unfold memPuts puts
  refine (slice_matches rfl lo hi).bind fun _ _ _ => ?_
  refine (Matches.run m _).bind fun a b hr => ?_
  subst hr
  refine (slice_matches rfl lo hi).bind fun cs ds hc => ?_
  subst hc
  refine (putsLoop_matches rfl).bind fun p q hp => ?_
  obtain ⟨m1, c1⟩ := p
  obtain ⟨s1, c2⟩ := q
  obtain ⟨h1, h2⟩ := hp
  simp only at h1 h2
  subst h1; subst h2
  refine ⟨_, rfl, ?_⟩
  show (if _ then _ else _ : Mem).st = _
  split <;> rfl

theorem puts_matches_of {E : Env} {m : Mem} {s : St} {lo lo' hi hi' : Int} (h : m.st = s) (h1 : lo = lo')
    (h2 : hi = hi') : Matches Holds (memPuts E m lo hi) (puts E s lo' hi') := by
  subst h1; subst h2
  exact puts_matches h lo hi

theorem getView2_matches {E : Env} {m : Mem} {s : St} (h : m.st = s) :
    Matches Eq (memGetView2 E m) (getView2 E s) := by
  subst h
  unfold memGetView2 getView2
  refine (Matches.run m _).bind fun a b hr => ?_
  subst hr
  exact (slice_matches rfl _ _).bind fun _ _ _ => ⟨_, rfl, rfl⟩

theorem repaintNoSuffix_matches {E : Env} {m : Mem} {s : St} (h : m.st = s) :
    Matches Holds (memRepaintNoSuffix E m) (repaintNoSuffix E s) := by
  subst h
  unfold memRepaintNoSuffix repaintNoSuffix
  refine (getView2_matches rfl).bind fun a b hr => ?_
  subst hr
  refine (puts_matches rfl _ _).bind fun m1 s1 h1 => ?_
  cases h1
  refine Matches.bind (R := Holds) ?_ fun m2 s2 h2 => ?_
  · split
    · refine (Matches.run _ _).bind fun a b hr => ?_
      subst hr
      exact ⟨_, rfl, rfl⟩
    · exact ⟨_, rfl, rfl⟩
  · cases h2
    exact puts_matches rfl _ _

theorem repaint_matches {E : Env} {m : Mem} {s : St} (h : m.st = s) :
    Matches Holds (memRepaint E m) (repaint E s) := by
  subst h
  exact repaintNoSuffix_matches rfl

theorem replaceAndRepaint_matches {E : Env} {G : Grow} {m : Mem} {s : St} (h : m.st = s) (pos : Int) (t : Bytes) :
    Matches Holds (memReplaceAndRepaint E G m pos t) (replaceAndRepaint E s pos t) := by
  subst h
  unfold memReplaceAndRepaint replaceAndRepaint
  refine (deleteCells_matches rfl pos _).bind fun ⟨m1, a1⟩ ⟨s1, b1⟩ ⟨h1, h2⟩ => ?_
  cases h1; cases h2
  refine (insertString_matches rfl pos t).bind fun ⟨m2, a2⟩ ⟨s2, b2⟩ ⟨h3, h4⟩ => ?_
  cases h3; cases h4
  exact repaint_matches rfl

theorem insertAndRepaint_matches {E : Env} {G : Grow} {m : Mem} {s : St} (h : m.st = s) (t : Bytes) :
    Matches Holds (memInsertAndRepaint E G m t) (insertAndRepaint E s t) := by
  subst h
  exact replaceAndRepaint_matches rfl _ _

theorem repaintAll_matches {E : Env} {m : Mem} {s : St} (h : m.st = s) :
    Matches Holds (memRepaintAll E m) (repaintAll E s) := by
  subst h
  exact repaint_matches rfl

theorem repaintLastLine_matches {E : Env} {m : Mem} {s : St} (h : m.st = s) :
    Matches Holds (memRepaintLastLine E m) (repaintLastLine E s) := by
  subst h
  unfold memRepaintLastLine repaintLastLine
  cases E.prompt with
  | none => exact repaint_matches rfl
  | some p => exact repaint_matches rfl

/-- A command and its counterpart. -/
def Agrees (f : Mem → HM (Mem × Result)) (g : St → M (St × Result)) : Prop :=
  ∀ m : Mem, Matches HoldsBoth (f m) (g m.st)

theorem done_matches {x : HM Mem} {y : M St} {r : Result} (h : Matches Holds x y) :
    Matches HoldsBoth (x >>= fun m => Pure.pure (m, r)) (y >>= fun s => Pure.pure (s, r)) :=
  h.bind fun _ _ h => ⟨_, rfl, h, rfl⟩

theorem interrupt_agrees : Agrees memInterrupt cmdInterrupt := fun _ => ⟨_, rfl, rfl, rfl⟩

theorem beginningOfLine_agrees (E : Env) : Agrees (memBeginningOfLine E) (cmdBeginningOfLine E) :=
  fun _ => done_matches (repaint_matches rfl)

theorem backwardChar_agrees (E : Env) : Agrees (memBackwardChar E) (cmdBackwardChar E) := by
  intro m
  unfold memBackwardChar cmdBackwardChar
  split
  · exact ⟨_, rfl, rfl, rfl⟩
  · exact done_matches (repaint_matches rfl)

theorem endOfLine_agrees (E : Env) : Agrees (memEndOfLine E) (cmdEndOfLine E) := by
  intro m
  unfold memEndOfLine cmdEndOfLine
  refine (width_matches rfl _ _).bind fun a b h => ?_
  subst h
  split
  · refine (puts_matches rfl _ _).bind fun m1 s1 h1 => ?_
    cases h1
    exact ⟨_, rfl, rfl, rfl⟩
  · refine (Matches.run _ _).bind fun a b h => ?_
    subst h
    refine (puts_matches rfl _ _).bind fun m1 s1 h1 => ?_
    cases h1
    exact ⟨_, rfl, rfl, rfl⟩

theorem forwardChar_agrees (E : Env) (G : Grow) : Agrees (memForwardChar E G) (cmdForwardChar E) := by
  intro m
  unfold memForwardChar cmdForwardChar
  split
  · split
    · exact done_matches (insertAndRepaint_matches rfl _)
    · exact ⟨_, rfl, rfl, rfl⟩
  · refine (width_matches rfl _ _).bind fun a b h => ?_
    subst h
    split
    · refine (puts_matches rfl _ _).bind fun m1 s1 h1 => ?_
      cases h1
      exact ⟨_, rfl, rfl, rfl⟩
    · refine (Matches.run _ _).bind fun a b h => ?_
      subst h
      refine (Matches.run _ _).bind fun a b h => ?_
      subst h
      refine (puts_matches rfl _ _).bind fun m1 s1 h1 => ?_
      cases h1
      exact ⟨_, rfl, rfl, rfl⟩

theorem backwardDeleteChar_agrees (E : Env) : Agrees (memBackwardDeleteChar E) (cmdBackwardDeleteChar E) := by
  intro m
  unfold memBackwardDeleteChar cmdBackwardDeleteChar
  split
  · refine (deleteCells_matches rfl _ _).bind fun ⟨m1, a1⟩ ⟨s1, b1⟩ ⟨h1, h2⟩ => ?_
    cases h1; cases h2
    refine done_matches (repaint_matches ?_)
    split <;> rfl
  · exact ⟨_, rfl, rfl, rfl⟩

theorem deleteChar_agrees (E : Env) : Agrees (memDeleteChar E) (cmdDeleteChar E) := by
  intro m
  unfold memDeleteChar cmdDeleteChar
  refine (deleteCells_matches rfl _ _).bind fun ⟨m1, a1⟩ ⟨s1, b1⟩ ⟨h1, h2⟩ => ?_
  cases h1; cases h2
  exact done_matches (repaint_matches rfl)

theorem deleteOrAbort_agrees (E : Env) : Agrees (memDeleteOrAbort E) (cmdDeleteOrAbort E) := by
  intro m
  unfold memDeleteOrAbort cmdDeleteOrAbort
  split
  · exact deleteChar_agrees E m
  · exact ⟨_, rfl, rfl, rfl⟩

theorem selfInsertTail_agrees (E : Env) (G : Grow) (k : Bytes) :
    Agrees (fun m => memSelfInsertTail E G m k) (fun s => selfInsertTail E s k) := by
  intro m
  unfold memSelfInsertTail selfInsertTail
  refine (insertString_matches rfl _ _).bind fun ⟨m1, a1⟩ ⟨s1, b1⟩ ⟨h1, h2⟩ => ?_
  cases h1; cases h2
  refine (width_matches rfl _ _).bind fun a b h => ?_
  subst h
  refine done_matches (repaint_matches ?_)
  split <;> rfl

theorem selfInsert_agrees (E : Env) (G : Grow) (k : Bytes) : Agrees (memSelfInsert E G k) (cmdSelfInsert E k) := by
  intro m
  unfold memSelfInsert cmdSelfInsert
  dsimp only
  split
  · refine (Matches.run _ _).bind fun a b h => ?_
    subst h
    exact backwardDeleteChar_agrees E _
  · split
    · refine (Matches.run _ _).bind fun a b h => ?_
      subst h
      refine (backwardDeleteChar_agrees E m).bind fun ⟨m1, a1⟩ ⟨s1, b1⟩ ⟨h1, h2⟩ => ?_
      cases h1; cases h2
      exact selfInsertTail_agrees E G _ _
    · split
      · exact selfInsertTail_agrees E G _ { m with st := { m.st with pending := [] } }
      · exact selfInsertTail_agrees E G _ _

theorem killLine_agrees (E : Env) : Agrees (memKillLine E) (cmdKillLine E) := by
  intro m
  unfold memKillLine cmdKillLine
  refine (sub_matches rfl _ _).bindOk fun a b _ hb h => ?_
  subst h
  have hc : 0 ≤ m.st.cursor ∧ m.st.cursor ≤ m.st.len := by
    unfold subString at hb
    cases hs : slice m.st m.st.buf m.st.cursor m.st.len with
    | error e => rw [hs] at hb; cases hb
    | ok cs =>
      obtain ⟨h1, h2, _⟩ := slice_ok hs
      exact ⟨h1, h2⟩
  let m' : Mem := { m with st := eraseline { m.st with clip := E.clipSet m.st.clip a } }
  show Matches HoldsBoth (do
    let tail ← memSub m' m'.st.cursor m'.st.len
    Pure.pure (memCut { m' with st := { m'.st with
      undoes := { pos := m'.st.cursor, del := 0, text := tail } :: m'.st.undoes } } m'.st.cursor.toNat, Result.cont))
    (do
    let tail ← slice m'.st m'.st.buf m'.st.cursor m'.st.len
    let head ← slice m'.st m'.st.buf 0 m'.st.cursor
    return ({ m'.st with undoes := { pos := m'.st.cursor, del := 0, text := cell2string tail } :: m'.st.undoes,
                         buf := head }, Result.cont))
  unfold memSub
  simp only [bind_assoc]
  refine (slice_matches (m := m') rfl _ _).bind fun x y hr => ?_
  have hh : slice m'.st m'.st.buf 0 m'.st.cursor = .ok (m'.st.buf.take m'.st.cursor.toNat) := by
    unfold slice
    rw [if_pos ⟨by omega, hc.1⟩, if_pos (show m'.st.cursor ≤ (m'.st.buf.length : Int) from hc.2)]
    rfl
  rw [live_matches hr, hh]
  exact ⟨_, rfl, rfl, rfl⟩

theorem killWholeLine_agrees : Agrees memKillWholeLine cmdKillWholeLine := fun _ => ⟨_, rfl, rfl, rfl⟩

theorem checkCursor_matches (m : Mem) : Matches Eq (memCheckCursor m) (checkCursor m.st) := by
  unfold memCheckCursor checkCursor
  by_cases h1 : 0 ≤ m.st.cursor
  · by_cases h2 : m.st.cursor ≤ m.st.len
    · rw [if_pos ⟨h1, h2⟩, if_pos h1, if_pos h2]
      exact ⟨_, rfl, rfl⟩
    · rw [if_pos h1, if_neg h2]
      exact Or.inl rfl
  · rw [if_neg h1, if_neg fun h => h1 h.1]
    exact Or.inr ⟨_, rfl⟩

theorem unixWordRubout_agrees (E : Env) : Agrees (memUnixWordRubout E) (cmdUnixWordRubout E) := by
  intro m
  unfold memUnixWordRubout cmdUnixWordRubout
  refine (checkCursor_matches m).bind fun _ _ _ => ?_
  refine (wordTop_matches rfl).bind fun a b h => ?_
  subst h
  refine (sub_matches rfl _ _).bind fun a b h => ?_
  subst h
  refine (deleteCells_matches rfl _ _).bind fun ⟨m1, a1⟩ ⟨s1, b1⟩ ⟨h1, h2⟩ => ?_
  cases h1; cases h2
  refine done_matches (repaint_matches ?_)
  split <;> rfl

theorem unixLineDiscard_agrees (E : Env) : Agrees (memUnixLineDiscard E) (cmdUnixLineDiscard E) := by
  intro m
  unfold memUnixLineDiscard cmdUnixLineDiscard
  refine (sub_matches rfl _ _).bind fun a b h => ?_
  subst h
  refine (deleteCells_matches rfl _ _).bind fun ⟨m1, a1⟩ ⟨s1, b1⟩ ⟨h1, h2⟩ => ?_
  cases h1; cases h2
  exact done_matches (repaint_matches rfl)

theorem clearScreen_agrees (E : Env) : Agrees (memClearScreen E) (cmdClearScreen E) :=
  fun _ => done_matches (repaintAll_matches rfl)

theorem repaintOnNewline_agrees (E : Env) : Agrees (memRepaintOnNewline E) (cmdRepaintOnNewline E) :=
  fun _ => done_matches (repaintAll_matches rfl)

theorem quotedInsert_agrees (E : Env) (G : Grow) : Agrees (memQuotedInsert E G) (cmdQuotedInsert E) := by
  intro m
  unfold memQuotedInsert cmdQuotedInsert
  dsimp only
  cases hg : getKey (m.st.emit .cursorOn) with
  | mk o s =>
    cases o with
    | none => exact ⟨_, rfl, rfl, rfl⟩
    | some key =>
      refine (selfInsert_agrees E G key { m with st := s }).bind fun ⟨m1, a1⟩ ⟨s1, b1⟩ ⟨h1, h2⟩ => ?_
      cases h1; cases h2
      exact ⟨_, rfl, rfl, rfl⟩

theorem yank_agrees (E : Env) (G : Grow) : Agrees (memYank E G) (cmdYank E) := by
  intro m
  unfold memYank cmdYank
  cases m.st.clip with
  | none => exact ⟨_, rfl, rfl, rfl⟩
  | some t => exact done_matches (insertAndRepaint_matches rfl _)

theorem yankWithQuote_agrees (E : Env) (G : Grow) : Agrees (memYankWithQuote E G) (cmdYankWithQuote E) := by
  intro m
  unfold memYankWithQuote cmdYankWithQuote
  cases m.st.clip with
  | none => exact ⟨_, rfl, rfl, rfl⟩
  | some t => exact done_matches (insertAndRepaint_matches rfl _)

theorem index_ok_of {s : St} {l : List α} {i : Int} (h0 : 0 ≤ i) (h1 : i < l.length) :
    ∃ a, index s l i = .ok a := by
  unfold index
  rw [if_neg (by omega)]
  have : i.toNat < l.length := by omega
  rw [List.getElem?_eq_getElem this]
  exact ⟨_, rfl⟩

theorem swapChar_agrees (E : Env) : Agrees (memSwapChar E) (cmdSwapChar E) := by
  intro m
  unfold memSwapChar cmdSwapChar
  split
  · split
    · exact ⟨_, rfl, rfl, rfl⟩
    · unfold memSub
      simp only [bind_assoc, pure_bind]
      refine (slice_matches rfl _ _).bind fun x y hr => ?_
      rw [live_matches hr]
      exact done_matches (puts_matches rfl _ _)
  · split
    · exact ⟨_, rfl, rfl, rfl⟩
    · rename_i h1
      unfold memSub
      simp only [bind_assoc, pure_bind]
      refine (slice_matches rfl _ _).bindOk fun x y _ hy hr => ?_
      obtain ⟨_, _, h3, _⟩ := slice_ok hy
      rw [live_matches hr]
      refine (width_matches rfl _ _).bind fun a b h => ?_
      subst h
      obtain ⟨c, hi⟩ := index_ok_of (s := { m.st with undoes := { pos := m.st.cursor - 1, del := 2, text := cell2string y } :: m.st.undoes })
        (l := m.st.buf) (i := m.st.cursor) (by omega) (by omega)
      simp only [hi, Mem.run, bind, Except.bind]
      refine done_matches (puts_matches_of ?_ ?_ ?_) <;> split <;> rfl

theorem backwardWord_agrees (E : Env) : Agrees (memBackwardWord E) (cmdBackwardWord E) := by
  intro m
  unfold memBackwardWord cmdBackwardWord
  refine (checkCursor_matches m).bind fun _ _ _ => ?_
  refine done_matches (repaint_matches ?_)
  dsimp only
  split <;> rfl

theorem forwardWord_agrees (E : Env) : Agrees (memForwardWord E) (cmdForwardWord E) := by
  intro m
  unfold memForwardWord cmdForwardWord
  by_cases h0 : m.st.cursor < 0
  · have : checkCursor m.st = .error ⟨.bounds, m.st⟩ := by
      unfold checkCursor
      rw [if_neg (by omega)]
    rw [if_pos h0, this]
    exact Or.inr ⟨m, rfl⟩
  · rw [if_neg h0]
    have hx : ∀ {x : M (St × Result)} {y : HM (Mem × Result)}, Matches HoldsBoth y x →
        Matches HoldsBoth y (checkCursor m.st >>= fun _ => x) := by
      intro x y h
      unfold checkCursor
      rw [if_pos (by omega)]
      split
      · exact h
      · exact Or.inl rfl
    refine hx ?_
    refine (width_matches rfl _ _).bind fun a b h => ?_
    subst h
    split
    · refine (puts_matches rfl _ _).bind fun m1 s1 h1 => ?_
      cases h1
      exact ⟨_, rfl, rfl, rfl⟩
    · exact done_matches (repaint_matches rfl)

theorem undo_agrees (E : Env) (G : Grow) : Agrees (memUndo E G) (cmdUndo E) := by
  intro m
  unfold memUndo cmdUndo
  cases m.st.undoes with
  | nil => exact ⟨_, rfl, rfl, rfl⟩
  | cons u rest =>
    let m' : Mem := { m with st := gotoHead { m.st with undoes := rest } }
    refine Matches.bind (R := fun (a : Mem) b => a.st = { m'.st with buf := b }) ?_ fun m1 b1 h1 => ?_
    · split
      · exact delete_matches rfl _ _
      · exact ⟨_, rfl, rfl⟩
    · refine Matches.bind (R := Holds) ?_ fun m2 s2 h2 => ?_
      · split
        · refine (insert_matches h1 _ _).bind fun m3 b3 h3 => ?_
          refine ⟨_, rfl, ?_⟩
          show ({ m3.st with cursor := _ } : St) = _
          rw [h3]
        · refine ⟨_, rfl, ?_⟩
          show ({ m1.st with cursor := _ } : St) = _
          rw [h1]
      · cases h2
        exact done_matches (repaint_matches rfl)

theorem showHistory_agrees (E : Env) (G : Grow) : Agrees (memShowHistory E G) (showHistory E) := by
  intro m
  unfold memShowHistory showHistory
  refine (killWholeLine_agrees m).bind fun ⟨m1, a1⟩ ⟨s1, b1⟩ ⟨h1, h2⟩ => ?_
  cases h1; cases h2
  refine (Matches.run _ _).bind fun a b h => ?_
  subst h
  split
  · refine (insertString_matches rfl _ _).bind fun ⟨m2, a2⟩ ⟨s2, b2⟩ ⟨h3, h4⟩ => ?_
    cases h3; cases h4
    refine (endOfLine_agrees E { m2 with st := { m2.st with viewStart := 0, cursor := 0 } }).bind
      fun ⟨m3, a3⟩ ⟨s3, b3⟩ ⟨h5, h6⟩ => ?_
    cases h5; cases h6
    exact ⟨_, rfl, rfl, rfl⟩
  · exact ⟨_, rfl, rfl, rfl⟩

theorem previousHistory_agrees (E : Env) (G : Grow) : Agrees (memPreviousHistory E G) (cmdPreviousHistory E) := by
  intro m
  unfold memPreviousHistory cmdPreviousHistory
  split
  · exact ⟨_, rfl, rfl, rfl⟩
  · split
    · exact ⟨_, rfl, rfl, rfl⟩
    · have key : ∀ m' : Mem, Matches HoldsBoth (do
          let s ← m'.run (saveModifiedHistory E m'.st)
          memShowHistory E G { m' with st := { s with histPtr := s.histPtr - 1 } })
          (do
          let s ← saveModifiedHistory E m'.st
          showHistory E { s with histPtr := s.histPtr - 1 }) := by
        intro m'
        refine (Matches.run _ _).bind fun a b h => ?_
        subst h
        exact showHistory_agrees E G { m' with st := { a with histPtr := a.histPtr - 1 } }
      by_cases hp : m.st.histPtr ≤ 0
      · simp only [if_pos hp]
        exact key { m with st := { m.st with histPtr := E.histLen + 1 } }
      · simp only [if_neg hp]
        exact key m

theorem nextHistory_agrees (E : Env) (G : Grow) : Agrees (memNextHistory E G) (cmdNextHistory E) := by
  intro m
  unfold memNextHistory cmdNextHistory
  split
  · exact ⟨_, rfl, rfl, rfl⟩
  · split
    · exact ⟨_, rfl, rfl, rfl⟩
    · refine (Matches.run _ _).bind fun a b h => ?_
      subst h
      exact showHistory_agrees E G { m with st := { a with histPtr := a.histPtr + 1 } }

theorem isearchLoop_agrees (E : Env) (G : Grow) (n : Nat) (it : ISt) :
    Agrees (memIsearchLoop E G n it) (isearchLoop E n it) := by
  induction n generalizing it with
  | zero => exact fun m => Or.inr ⟨m, rfl⟩
  | succ n ih =>
    intro m
    unfold memIsearchLoop isearchLoop
    refine (Matches.run _ _).bind fun a b h => ?_
    subst h
    dsimp only
    cases hg : getKey ((eraseline a).emit .cursorOn) with
    | mk o s =>
      cases o with
      | none => exact ⟨_, rfl, rfl, rfl⟩
      | some key =>
        dsimp only
        split
        · exact ih _ { m with st := gotoHead (s.emit .cursorOff) }
        · split
          · exact done_matches (replaceAndRepaint_matches rfl _ _)
          · split
            · refine (getView2_matches rfl).bind fun x y hr => ?_
              subst hr
              refine (puts_matches rfl _ _).bind fun m1 s1 h1 => ?_
              cases h1
              exact done_matches (puts_matches rfl _ _)
            · split
              · refine (Matches.run _ _).bind fun x y h => ?_
                subst h
                exact ih _ { m with st := gotoHead (s.emit .cursorOff) }
              · split
                · refine (Matches.run _ _).bind fun x y h => ?_
                  subst h
                  exact ih _ { m with st := gotoHead (s.emit .cursorOff) }
                · split
                  · exact ih _ { m with st := gotoHead (s.emit .cursorOff) }
                  · exact ih _ { m with st := gotoHead (s.emit .cursorOff) }

theorem isearch_agrees (E : Env) (G : Grow) : Agrees (memIsearch E G) (cmdISearchBackward E) :=
  fun m => isearchLoop_agrees E G _ _ { m with st := gotoHead m.st }

theorem complete_matches (U : Uni) (E : Env) (G : Grow) (K : Completer) (p : Bytes) (m : Mem) :
    Matches HoldsBoth (memComplete U E G K p m) (complete U E K p m.st) := by
  unfold memComplete complete
  refine (Matches.run _ _).bind fun a b h => ?_
  subst h
  obtain ⟨fields, last⟩ := a
  dsimp only
  cases fields.getLast? with
  | none => exact ⟨_, rfl, rfl, rfl⟩
  | some field =>
    refine (Matches.run _ _).bind fun a b h => ?_
    subst h
    obtain ⟨list, base⟩ := a
    dsimp only
    have done : ∀ {x : HM Mem} {y : M St} {r : List Bytes}, Matches Holds x y →
        Matches HoldsBoth (x >>= fun m => Pure.pure (m, r)) (y >>= fun s => Pure.pure (s, r)) :=
      fun h => h.bind fun _ _ h => ⟨_, rfl, h, rfl⟩
    rcases list with _ | ⟨x, _ | ⟨y, l⟩⟩
    · exact ⟨_, rfl, rfl, rfl⟩
    · by_cases hf : equalFold U field x = true
      · simp only [if_pos hf]
        exact ⟨_, rfl, rfl, rfl⟩
      · simp only [if_neg hf]
        exact done (replaceAndRepaint_matches rfl _ _)
    · dsimp only
      cases commonPrefix U (x :: y :: l) with
      | none => exact Or.inr ⟨_, rfl⟩
      | some q =>
        by_cases hf : equalFold U field q = true
        · simp only [if_pos hf]
          exact ⟨_, rfl, rfl, rfl⟩
        · simp only [if_neg hf]
          exact done (replaceAndRepaint_matches rfl _ _)

theorem completion_agrees (E : Env) (G : Grow) (P : Completing) :
    Agrees (memCompletion E G P) (cmdComplete E P) := by
  intro m
  unfold memCompletion cmdComplete
  cases hb : P.box with
  | none =>
    show Matches HoldsBoth _ (cmdCompletion _ _ _ _ _)
    unfold cmdCompletion
    refine (complete_matches _ E G _ _ m).bind fun ⟨m1, a1⟩ ⟨s1, b1⟩ ⟨h1, h2⟩ => ?_
    cases h1; cases h2
    exact ⟨_, rfl, rfl, rfl⟩
  | some box =>
    show Matches HoldsBoth _ (cmdCompletionOrList _ _ _ _ _ _)
    unfold cmdCompletionOrList
    refine (complete_matches _ E G _ _ m).bind fun ⟨m1, a1⟩ ⟨s1, b1⟩ ⟨h1, h2⟩ => ?_
    cases h1; cases h2
    dsimp only
    split
    · exact done_matches (repaintAll_matches rfl)
    · exact ⟨_, rfl, rfl, rfl⟩

theorem call_agrees (E : Env) (G : Grow) (c : Cmd) : Agrees (c.memCall E G) (c.call E) := by
  cases c with
  | acceptLine => exact fun m => ⟨_, rfl, rfl, rfl⟩
  | interrupt => exact interrupt_agrees
  | beginningOfLine => exact beginningOfLine_agrees E
  | backwardChar => exact backwardChar_agrees E
  | endOfLine => exact endOfLine_agrees E
  | forwardChar => exact forwardChar_agrees E G
  | backwardDeleteChar => exact backwardDeleteChar_agrees E
  | deleteChar => exact deleteChar_agrees E
  | deleteOrAbort => exact deleteOrAbort_agrees E
  | killLine => exact killLine_agrees E
  | killWholeLine => exact killWholeLine_agrees
  | unixWordRubout => exact unixWordRubout_agrees E
  | unixLineDiscard => exact unixLineDiscard_agrees E
  | clearScreen => exact clearScreen_agrees E
  | repaintOnNewline => exact repaintOnNewline_agrees E
  | quotedInsert => exact quotedInsert_agrees E G
  | yank => exact yank_agrees E G
  | yankWithQuote => exact yankWithQuote_agrees E G
  | swapChar => exact swapChar_agrees E
  | backwardWord => exact backwardWord_agrees E
  | forwardWord => exact forwardWord_agrees E
  | undo => exact undo_agrees E G
  | previousHistory => exact previousHistory_agrees E G
  | nextHistory => exact nextHistory_agrees E G
  | isearchBackward => exact isearch_agrees E G
  | selfInsert k => exact selfInsert_agrees E G k
  | completion P => exact completion_agrees E G P
  | custom f =>
    intro m
    show Matches HoldsBoth (m.run (f m.st) >>= _) (f m.st)
    cases hf : f m.st with
    | ok p => exact ⟨_, rfl, rfl, rfl⟩
    | error e => exact Or.inr ⟨_, rfl⟩

theorem start_matches (E : Env) (G : Grow) (w : World) : Matches Holds (memStart E G w) (startSt E w) := by
  unfold memStart startSt
  refine (insertString_matches (m := ⟨promptSt E w, List.replicate 20 none⟩) rfl _ _).bind
    fun ⟨m1, a1⟩ ⟨s1, b1⟩ ⟨h1, h2⟩ => ?_
  cases h1; cases h2
  refine Matches.bind (R := Holds) (repaint_matches ?_) fun m2 s2 h2 => ?_
  · split <;> rfl
  · cases h2
    exact ⟨_, rfl, rfl⟩

theorem onResize_matches (E : Env) (m : Mem) (w : Int) : Matches Holds (memOnResize E m w) (onResize E m.st w) :=
  repaintLastLine_matches rfl

theorem finish_matches (E : Env) (m : Mem) (rc : Result) :
    Matches HoldsBoth (memFinish E m rc) (finish E m.st rc) := by
  unfold memFinish finish
  refine Matches.bind (R := Holds) ?_ fun m2 s2 h2 => ?_
  · cases m.st.suffix with
    | none => exact ⟨_, rfl, rfl⟩
    | some t => exact repaintNoSuffix_matches rfl
  · cases h2
    exact ⟨_, rfl, rfl, rfl⟩

theorem exec_matches (E : Env) (G : Grow) (c : Cmd) (m : Mem) :
    Matches HoldsBoth (memExec E G c m) (execCmd E c m.st) := by
  unfold memExec execCmd
  refine (call_agrees E G c { m with st := m.st.emit .cursorOff }).bind fun ⟨m1, a1⟩ ⟨s1, b1⟩ ⟨h1, h2⟩ => ?_
  cases h1; cases h2
  have fin : ∀ rc, Matches HoldsBoth (do
      let (m, r) ← memFinish E { m1 with st := m1.st.emit .cursorOn } rc
      return (m, some r)) (do
      let (s, r) ← finish E (m1.st.emit .cursorOn) rc
      return (s, some r)) := by
    intro rc
    refine (finish_matches E { m1 with st := m1.st.emit .cursorOn } rc).bind fun ⟨m2, a2⟩ ⟨s2, b2⟩ ⟨h3, h4⟩ => ?_
    cases h3; cases h4
    exact ⟨_, rfl, rfl, rfl⟩
  cases a1 with
  | cont => exact ⟨_, rfl, rfl, rfl⟩
  | enter => exact fin _
  | abort => exact fin _
  | intr => exact fin _

theorem step_matches (E : Env) (G : Grow) (m : Mem) :
    Matches HoldsBoth (memStep E G m) (step E m.st) := by
  unfold memStep step
  rcases hin : m.st.input with _ | ⟨ev, rest⟩
  · exact ⟨_, rfl, rfl, rfl⟩
  · cases ev with
    | err e => exact ⟨_, rfl, rfl, rfl⟩
    | resize w =>
      refine (onResize_matches E { m with st := { m.st with input := rest } } w).bind fun m1 s1 h1 => ?_
      cases h1
      exact ⟨_, rfl, rfl, rfl⟩
    | key k => exact exec_matches E G _ { m with st := { m.st.emit .await with input := rest } }

theorem loop_matches (E : Env) (G : Grow) (n : Nat) (m : Mem) :
    Matches HoldsBoth (memLoop E G n m) (loop E n m.st) := by
  induction n generalizing m with
  | zero => exact Or.inr ⟨_, rfl⟩
  | succ n ih =>
    unfold memLoop loop
    refine (step_matches E G m).bind fun ⟨m1, a1⟩ ⟨s1, b1⟩ ⟨h1, h2⟩ => ?_
    cases h1; cases h2
    cases a1 with
    | none => exact ih m1
    | some r => exact ⟨_, rfl, rfl, rfl⟩

theorem readLine_matches (E : Env) (G : Grow) (w : World) :
    Matches HoldsBoth (memReadLine E G w) (readLine E w) := by
  unfold memReadLine readLine
  refine (start_matches E G w).bind fun m s h => ?_
  cases h
  exact loop_matches E G _ m

end Readline
