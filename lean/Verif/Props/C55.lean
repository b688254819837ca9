import Verif.Model.Output
import Verif.Props.C30
import Verif.Props.C39
import Verif.Proof.Steady
/-!
# C55: what was written is on the terminal when ReadLine waits for a key or returns

`C55_order`, `C55_fails`: the `bufio.Writer` loses nothing and changes no order; if the terminal stops
taking bytes, what arrived is the beginning of what was written.
`C55_return`: when `ReadLine` returns everything has arrived.
`C55_key`: when `GetKey` begins to wait everything has arrived.
`C55_stays_partial`: and it stays so while no callback of a resize takes the mutex.
`C55_refuted`: the callback of a resize flushes before it writes, and not after: what it paints
stays in the buffer until the next key or the next resize.  This is so in every session, at every key.
-/
namespace Readline
open Spec Example

/-- All bytes of some output. -/
def Spec.bytesOf (C : Cfg) (ts : List Tok) : Bytes := ts.flatMap (Tok.bytes C)

namespace Writer
variable {w : Writer} {C : Cfg}

/-- The buffer is not overfull. -/
structure Fine (w : Writer) : Prop where
  pos : 0 < w.size
  full : w.buf.length ≤ w.size

theorem takes_le (w : Writer) (p : Bytes) : w.takes p ≤ p.length := by
  unfold takes
  split <;> omega

theorem send_room (h : w.room = none) (p : Bytes) :
    w.send p = { w with sent := w.sent ++ p, failed := false } := by
  have : w.takes p = p.length := by unfold takes; rw [h]
  simp [send, this, h]

theorem flush_room (h : w.room = none) (hf : w.failed = false) :
    w.flush = { w with sent := w.sent ++ w.buf, buf := [] } := by
  unfold flush
  rw [if_neg (by rw [hf]; decide)]
  split
  · rename_i he
    rw [he, List.append_nil]
    show w = { w with buf := [] }
    rw [← he]
  · rw [send_room h]
    have : w.takes w.buf = w.buf.length := by unfold takes; rw [h]
    rw [this, List.drop_length, ← hf]

/-- With a terminal that does not fail. -/
theorem writeLoop_room (n : Nat) {w : Writer} {p : Bytes} (hn : p.length + (if w.buf = [] then 0 else 1) < n) (h : w.room = none) (hf : w.failed = false)
    (hw : w.Fine) :
    (w.writeLoop n p).room = none ∧ (w.writeLoop n p).failed = false ∧ (w.writeLoop n p).Fine ∧
      (w.writeLoop n p).size = w.size ∧
      (w.writeLoop n p).sent ++ (w.writeLoop n p).buf = w.sent ++ w.buf ++ p ∧
      (w.buf.length + p.length ≤ w.size → (w.writeLoop n p).sent = w.sent) := by
  induction n generalizing w p with
  | zero => omega
  | succ n ih =>
    have h1 := hw.pos
    have h2 := hw.full
    rw [writeLoop, if_neg (by rw [hf]; decide)]
    by_cases hp : p.length ≤ w.size - w.buf.length
    · rw [if_pos hp]
      exact ⟨h, hf, ⟨h1, by simp; omega⟩, rfl, by simp, fun _ => rfl⟩
    · rw [if_neg hp]
      by_cases hb : w.buf = []
      · rw [if_pos hb, send_room h]
        exact ⟨h, rfl, ⟨h1, h2⟩, rfl, by simp [hb], fun hx => by omega⟩
      · rw [if_neg hb]
        rw [if_neg hb] at hn
        have e := flush_room (w := { w with buf := w.buf ++ p.take (w.size - w.buf.length) }) h hf
        dsimp only at e ⊢
        rw [e]
        obtain ⟨a1, a2, a3, a4, a5, a6⟩ := ih (w := { w with sent := w.sent ++ (w.buf ++ p.take (w.size - w.buf.length)), buf := [] })
          (p := p.drop (w.size - w.buf.length)) (by simp; omega) h hf ⟨h1, by simp⟩
        refine ⟨a1, a2, a3, a4, ?_, fun hx => by omega⟩
        rw [a5]
        simp

theorem write_room {p : Bytes} (h : w.room = none) (hf : w.failed = false) (hw : w.Fine) :
    (w.write p).room = none ∧ (w.write p).failed = false ∧ (w.write p).Fine ∧ (w.write p).size = w.size ∧
      (w.write p).sent ++ (w.write p).buf = w.sent ++ w.buf ++ p ∧
      (w.buf.length + p.length ≤ w.size → (w.write p).sent = w.sent) :=
  writeLoop_room _ (by split <;> omega) h hf hw

/-- One piece of output. -/
theorem tok_room (t : Tok) (h : w.room = none) (hf : w.failed = false) (hw : w.Fine) :
    (w.tok C t).room = none ∧ (w.tok C t).failed = false ∧ (w.tok C t).Fine ∧ (w.tok C t).size = w.size ∧
      (w.tok C t).sent ++ (w.tok C t).buf = w.sent ++ w.buf ++ t.bytes C := by
  have key : ∀ p, (w.write p).room = none ∧ (w.write p).failed = false ∧ (w.write p).Fine ∧ (w.write p).size = w.size ∧
      (w.write p).sent ++ (w.write p).buf = w.sent ++ w.buf ++ p := fun p => by
    obtain ⟨a1, a2, a3, a4, a5, _⟩ := write_room (p := p) h hf hw
    exact ⟨a1, a2, a3, a4, a5⟩
  have fl : w.flush.room = none ∧ w.flush.failed = false ∧ w.flush.Fine ∧ w.flush.size = w.size ∧
      w.flush.sent ++ w.flush.buf = w.sent ++ w.buf ++ [] := by
    rw [flush_room h hf]
    exact ⟨h, hf, ⟨hw.pos, by simp⟩, rfl, by simp⟩
  cases t <;> first | exact key _ | exact fl

end Writer

theorem run_room {C : Cfg} (ts : List Tok) {w : Writer} (h : w.room = none) (hf : w.failed = false) (hw : w.Fine) :
    (w.run C ts).room = none ∧ (w.run C ts).failed = false ∧ (w.run C ts).Fine ∧ (w.run C ts).size = w.size ∧
      (w.run C ts).sent ++ (w.run C ts).buf = w.sent ++ w.buf ++ bytesOf C ts := by
  induction ts generalizing w with
  | nil => exact ⟨h, hf, hw, rfl, by simp [Writer.run, bytesOf]⟩
  | cons t ts ih =>
    obtain ⟨a1, a2, a3, a4, a5⟩ := Writer.tok_room (C := C) t h hf hw
    obtain ⟨c1, c2, c3, c4, c5⟩ := ih a1 a2 a3
    refine ⟨c1, c2, c3, c4.trans a4, ?_⟩
    show ((w.tok C t).run C ts).sent ++ ((w.tok C t).run C ts).buf = _
    rw [c5, a5]
    simp [bytesOf]

/-- A new `bufio.Writer` in front of a terminal. -/
def Spec.Fresh (w : Writer) : Prop := 0 < w.size ∧ w.buf = [] ∧ w.sent = [] ∧ w.room = none ∧ w.failed = false

theorem Spec.Fresh.fine {w : Writer} (h : Fresh w) : w.Fine := ⟨h.1, by rw [h.2.1]; simp⟩

/-- Nothing is lost and nothing changes places. -/
theorem C55_order {C : Cfg} {w : Writer} (hw : Fresh w) (ts : List Tok) :
    (w.run C ts).sent ++ (w.run C ts).buf = bytesOf C ts := by
  have := (run_room (C := C) ts hw.2.2.2.1 hw.2.2.2.2 hw.fine).2.2.2.2
  rw [this, hw.2.1, hw.2.2.1]; rfl

theorem run_concat {C : Cfg} (w : Writer) (a c : List Tok) : w.run C (a ++ c) = (w.run C a).run C c := by
  simp [Writer.run]

/-- Output that ends with a flush has arrived. -/
theorem sent_flush {C : Cfg} {w : Writer} (hw : Fresh w) (ts : List Tok) {t : Tok} (ht : t = .flush ∨ t = .await) :
    (w.run C (ts ++ [t])).sent = bytesOf C (ts ++ [t]) ∧ (w.run C (ts ++ [t])).buf = [] := by
  obtain ⟨a1, a2, a3, a4, a5⟩ := run_room (C := C) ts hw.2.2.2.1 hw.2.2.2.2 hw.fine
  have e : w.run C (ts ++ [t]) = (w.run C ts).flush := by
    rw [run_concat]; rcases ht with rfl | rfl <;> rfl
  have hb : bytesOf C (ts ++ [t]) = bytesOf C ts := by
    unfold bytesOf; rw [List.flatMap_append]; rcases ht with rfl | rfl <;> simp [Tok.bytes]
  rw [e, Writer.flush_room a1 a2, hb]
  exact ⟨(C55_order hw ts), rfl⟩

/-- When `ReadLine` returns everything has arrived. -/
theorem C55_return {E : Env} {w : World} {W : Writer} (hW : Fresh W) {o z : Option Bytes} {out : List Tok} {r : RLRes}
    (h : readLineFull E o z w = .ok (out, r)) : (W.run E.cfg out).sent = bytesOf E.cfg out := by
  have key : ∃ t, out = t ++ [.cursorOn, .flush] := by
    unfold readLineFull at h
    cases o with
    | some e =>
      simp only [pure_ok, Prod.mk.injEq] at h
      exact ⟨w.out, h.1.symm⟩
    | none =>
      cases z with
      | some e =>
        simp only [pure_ok, Prod.mk.injEq] at h
        exact ⟨w.out, h.1.symm⟩
      | none =>
        obtain ⟨⟨s, r'⟩, h1, h⟩ := bind_ok.mp h
        simp only [pure_ok, Prod.mk.injEq] at h
        obtain ⟨u, -, hst⟩ := readLine_reachable h1
        rw [← h.1]
        exact step_last hst
  obtain ⟨t, e⟩ := key
  have e' : out = (t ++ [.cursorOn]) ++ [.flush] := by rw [e]; simp
  rw [e']
  exact (sent_flush hW _ (.inl rfl)).1

/-! ## A terminal that fails -/

/-- What is true whatever the terminal does, `all` being what was written. -/
structure Honest (w : Writer) (all : Bytes) : Prop where
  sent : w.sent <+: all
  whole : w.failed = false → w.sent ++ w.buf = all

theorem Honest.more {w : Writer} {a : Bytes} (h : Honest w a) (hf : w.failed = true) (p : Bytes) : Honest w (a ++ p) :=
  ⟨h.sent.trans (List.prefix_append _ _), fun x => by rw [hf] at x; cases x⟩

theorem honest_send {w : Writer} {all p : Bytes} (h : Honest w all) (hf : w.failed = false) (hb : w.buf = []) :
    Honest (w.send p) (all ++ p) := by
  have h1 := h.whole hf
  rw [hb, List.append_nil] at h1
  refine ⟨?_, fun hx => ?_⟩
  · show w.sent ++ p.take (w.takes p) <+: _
    rw [h1]
    exact (List.prefix_append_right_inj _).mpr (List.take_prefix _ _)
  · have : ¬ w.takes p < p.length := of_decide_eq_false hx
    have h2 := w.takes_le p
    show w.sent ++ p.take (w.takes p) ++ w.buf = _
    rw [hb, h1, List.take_of_length_le (by omega), List.append_nil]

theorem honest_flush {w : Writer} {all : Bytes} (h : Honest w all) : Honest w.flush all := by
  unfold Writer.flush
  split
  · exact h
  · rename_i hf
    have hf : w.failed = false := by simpa using hf
    have h1 := h.whole hf
    split
    · exact h
    · refine ⟨?_, fun hx => ?_⟩
      · show w.sent ++ w.buf.take (w.takes w.buf) <+: _
        rw [← h1]
        exact (List.prefix_append_right_inj _).mpr (List.take_prefix _ _)
      · have : ¬ w.takes w.buf < w.buf.length := of_decide_eq_false hx
        have h2 := w.takes_le w.buf
        show w.sent ++ w.buf.take (w.takes w.buf) ++ w.buf.drop (w.takes w.buf) = _
        rw [List.append_assoc, List.take_append_drop, h1]

theorem honest_fill {w : Writer} {all p : Bytes} (h : Honest w all) (hf : w.failed = false) :
    Honest { w with buf := w.buf ++ p } (all ++ p) := by
  have h1 := h.whole hf
  exact ⟨h.sent.trans (List.prefix_append _ _), fun _ => by rw [← h1]; simp⟩

theorem flush_empty {w : Writer} (hf : w.flush.failed = false) : w.flush.buf = [] := by
  unfold Writer.flush at hf ⊢
  split at hf
  · rename_i h; rw [h] at hf; cases hf
  · rename_i h
    rw [if_neg h]
    split at hf
    · rename_i he; rw [if_pos he]; exact he
    · rename_i he
      rw [if_neg he]
      have : ¬ w.takes w.buf < w.buf.length := of_decide_eq_false hf
      exact List.drop_eq_nil_of_le (by omega)

theorem honest_write {w : Writer} {all : Bytes} (p : Bytes) (h : Honest w all) : Honest (w.write p) (all ++ p) := by
  -- with an empty buffer
  have one : ∀ n {w : Writer} {all p : Bytes}, Honest w all → (w.failed = false → w.buf = []) →
      Honest (w.writeLoop (n + 1) p) (all ++ p) := by
    intro n w all p h hb
    rw [Writer.writeLoop]
    by_cases hf : w.failed = true
    · rw [if_pos hf]; exact h.more hf p
    · rw [if_neg hf]
      have hf : w.failed = false := by simpa using hf
      split
      · exact honest_fill h hf
      · rw [if_pos (hb hf)]
        exact honest_send h hf (hb hf)
  unfold Writer.write
  rw [Writer.writeLoop]
  by_cases hf : w.failed = true
  · rw [if_pos hf]; exact h.more hf p
  · rw [if_neg hf]
    have hf : w.failed = false := by simpa using hf
    split
    · exact honest_fill h hf
    · split
      · rename_i hb; exact honest_send h hf hb
      · have h2 := one p.length (p := p.drop (w.size - w.buf.length))
          (honest_flush (honest_fill (p := p.take (w.size - w.buf.length)) h hf)) flush_empty
        rw [List.append_assoc, List.take_append_drop] at h2
        exact h2

theorem honest_tok {C : Cfg} {w : Writer} {all : Bytes} (t : Tok) (h : Honest w all) :
    Honest (w.tok C t) (all ++ t.bytes C) := by
  cases t <;> first
    | exact honest_write _ h
    | (have h2 := honest_flush h
       rw [show Tok.bytes C _ = [] from rfl, List.append_nil]; exact h2)

/-- Whatever the terminal does, what arrived is the beginning of what was written. -/
theorem C55_fails {C : Cfg} {w : Writer} (hb : w.buf = []) (hs : w.sent = []) (ts : List Tok) :
    (w.run C ts).sent <+: bytesOf C ts := by
  have key : ∀ (ts : List Tok) {w : Writer} {all : Bytes}, Honest w all → Honest (w.run C ts) (all ++ bytesOf C ts) := by
    intro ts
    induction ts with
    | nil => intro w all h; simpa [Writer.run, bytesOf] using h
    | cons t ts ih =>
      intro w all h
      have := ih (honest_tok (C := C) t h)
      rw [List.append_assoc] at this
      exact this
  exact (key ts (all := []) ⟨by rw [hs]; exact List.prefix_refl _, fun _ => by rw [hb, hs]; rfl⟩).sent

/-! ## The two goroutines -/

/-- When `GetKey` begins to wait everything has arrived, in any schedule. -/
theorem C55_key {K : Code} {joins early : Bool} {E : Env} {w : World} {W : Writer} (hW : Fresh W) {g g' : G K}
    (_ : Steps K joins early (G.init K E w) g) (hi : g.ed = .idle) (h : Step K joins early g g') (hw : g'.ed = .waiting) :
    (W.run E.cfg g'.mem.out).sent = bytesOf E.cfg g'.mem.out := by
  cases h with
  | flush => exact (sent_flush hW g.mem.out (.inr rfl)).1
  | _ => simp_all

/-- Between the moment `g` in which a key is awaited and `g'` nobody took the mutex. -/
structure Still {K : Code} (g g' : G K) : Prop where
  mem : g'.ed = .waiting → g'.mem = g.mem
  lock : g'.lock = none
  ed : g'.ed = .waiting ∨ (∃ k, g'.ed = .locking k) ∨ (∃ r, g'.ed = .closing r) ∨ ∃ r, g'.ed = .returned r
  wa : (∀ r, g'.wa ≠ .running r) ∧ g'.wa ≠ .unlocking

theorem still_step {K : Code} {joins early : Bool} {g g1 g2 : G K} (h : Still g g1) (hs : Step K joins early g1 g2) :
    Still g g2 ∨ g1.log.length < g2.log.length := by
  obtain ⟨h1, h2, h3, h4, h5⟩ := h
  cases hs <;> first
    | (right; simp; done)
    | (exfalso; simp_all; done)
    | (left; refine ⟨?_, ?_, ?_, ?_, ?_⟩ <;> simp_all; done)

theorem log_grows {K : Code} {joins early : Bool} {g1 g2 : G K} (hs : Step K joins early g1 g2) :
    g1.log.length ≤ g2.log.length := by
  cases hs <;> simp

/-- It stays so while the mutex is not taken: a key is awaited in `g` with everything arrived, and
later, with the same list of locks, a key is still awaited. -/
theorem C55_stays_partial {K : Code} {joins early : Bool} {E : Env} {w : World} {W : Writer} (hW : Fresh W)
    {g g' g'' : G K} (h0 : Steps K joins early (G.init K E w) g) (hi : g.ed = .idle) (hl : g.lock = none)
    (h : Step K joins early g g') (hw : g'.ed = .waiting) (hs : Steps K joins early g' g'')
    (hlog : g''.log = g'.log) (hw' : g''.ed = .waiting) :
    (W.run E.cfg g''.mem.out).sent = bytesOf E.cfg g''.mem.out := by
  have hx := excl_steps excl_init h0
  have h1 : Still g' g' := by
    cases h with
    | flush =>
      refine ⟨fun _ => rfl, hl, .inl rfl, fun r hr => ?_, fun hr => ?_⟩
      · have := hx.wa r hr; rw [hl] at this; cases this
      · have := hx.waUn hr; rw [hl] at this; cases this
    | _ => simp_all
  have h2 : (Still g' g'' ∧ g'.log.length ≤ g''.log.length) ∨ g'.log.length < g''.log.length := by
    clear hlog hw'
    induction hs with
    | refl => exact .inl ⟨h1, Nat.le_refl _⟩
    | step _ _ hst ih =>
      rcases ih with ⟨ih, hle⟩ | ih
      · rcases still_step ih hst with h3 | h3
        · exact .inl ⟨h3, Nat.le_trans hle (log_grows hst)⟩
        · exact .inr (Nat.lt_of_le_of_lt hle h3)
      · exact .inr (Nat.lt_of_lt_of_le ih (log_grows hst))
  rcases h2 with ⟨h2, -⟩ | h2
  · rw [h2.mem hw']
    exact C55_key hW h0 hi h hw
  · rw [hlog] at h2; omega

/-! ## What the callback writes is not flushed -/

/-- Output that is not flushed. -/
def Tok.held : Tok → Bool
  | .flush | .await => false
  | _ => true

/-- From `s` to `s'` nothing was flushed. -/
def Buffered (s s' : St) : Prop := ∃ t, s'.out = s.out ++ t ∧ ∀ x ∈ t, x.held = true

namespace Buffered
variable {s s1 s2 : St}

theorem refl (s : St) : Buffered s s := ⟨[], by simp, by simp⟩

theorem emit (h : Buffered s s1) {t : Tok} (ht : t.held = true := by rfl) : Buffered s (s1.emit t) := by
  obtain ⟨u, e, hu⟩ := h
  refine ⟨u ++ [t], by show s1.out ++ [t] = _; rw [e]; simp, fun x hx => ?_⟩
  rcases List.mem_append.mp hx with hx | hx
  · exact hu x hx
  · rw [List.mem_singleton.mp hx]; exact ht

theorem of (h : Buffered s s1) (ho : s2.out = s1.out := by rfl) : Buffered s s2 := by
  obtain ⟨u, e, hu⟩ := h
  exact ⟨u, by rw [ho, e], hu⟩

end Buffered

section
variable {E : Env} {s s0 : St}

theorem printMoji_held (h : Buffered s0 s) (m : Moji) : Wp Halts (printMoji s m) (Buffered s0) := by
  unfold printMoji
  split
  · exact PanicKind.noConfusion
  · exact h.emit

theorem putsLoop_held (cs : List Cell) (c : Color) {s : St} (h : Buffered s0 s) :
    Wp Halts (putsLoop cs c s) (fun p => Buffered s0 p.1) := by
  induction cs generalizing c s with
  | nil => exact h
  | cons x xs ih =>
    rw [putsLoop]
    refine Wp.seq (printMoji_held (s0 := s0) ?_ _) fun s1 h1 => ih _ h1
    split
    · exact h.emit
    · exact h

theorem refreshColor_held (h : Buffered s0 s) : Wp Halts (refreshColor E s) (Buffered s0) := by
  unfold refreshColor
  split
  · exact PanicKind.noConfusion
  · exact h.of

theorem puts_held (h : Buffered s0 s) (lo hi : Int) : Wp Halts (puts E s lo hi) (Buffered s0) := by
  unfold puts
  refine Wp.seq (slice_h _ _ _ _) fun _ _ => ?_
  refine Wp.seq (refreshColor_held h) fun s1 h1 => ?_
  refine Wp.seq (slice_h _ _ _ _) fun cs _ => ?_
  refine Wp.seq (putsLoop_held _ _ h1) fun p h2 => ?_
  refine Wp.pure ?_
  split
  · exact h2.emit
  · exact h2

theorem suffixLoop_held {C : Cfg} {vw : Int} (ms : List Moji) (w : Int) {s : St}
    (h : Buffered s0 s) : Wp Halts (suffixLoop C vw ms w s) (Buffered s0) := by
  induction ms generalizing w s with
  | nil => exact h
  | cons m ms ih =>
    rw [suffixLoop]
    split
    · exact h
    · exact Wp.seq (printMoji_held h _) fun s1 h1 => ih _ h1

theorem repaint_held (h : Buffered s0 s) : Wp Halts (repaint E s) (Buffered s0) := by
  have hu : Buffered s0 (updateSuffix E s) := by
    unfold updateSuffix
    split
    · exact h
    · split <;> exact h.of
  unfold repaint repaintNoSuffix
  refine Wp.seq (getView2_h E _) fun p _ => ?_
  obtain ⟨n, w⟩ := p
  dsimp only
  refine Wp.seq (puts_held (hu.emit) _ _) fun s1 h1 => ?_
  have last : ∀ s2, Buffered s0 s2 →
      Wp Halts (puts E (gotoHead (eraseline s2)) (gotoHead (eraseline s2)).viewStart
        (gotoHead (eraseline s2)).cursor) (Buffered s0) :=
    fun s2 h2 => puts_held ((h2.emit).emit) _ _
  split
  · refine Wp.seq (P := Buffered s0) ?_ last
    refine Wp.seq (suffixLoop_held _ _ (h1.emit)) fun s2 h2 => ?_
    exact h2.emit
  · exact Wp.seq (P := Buffered s0) h1 last

end

/-- What the callback writes: a flush first, then at least a carriage return, and no flush. -/
theorem onResize_held {E : Env} {s s' : St} {w : Int} (h : onResize E s w = .ok s') :
    ∃ c u, s'.out = s.out ++ .flush :: .lit (0x0D :: c) :: u ∧ ∀ x ∈ u, x.held = true := by
  have h0 : (resetViewStart E { s with termWidth := w }).out = s.out := rfl
  unfold onResize repaintLastLine at h
  dsimp only at h
  split at h
  · obtain ⟨u, e, hu⟩ := (repaint_held (Buffered.refl _)).ok h
    refine ⟨[0x3E, 0x20], u, ?_, hu⟩
    rw [e]
    show s.out ++ [.flush] ++ [.lit [0x0D, 0x3E, 0x20]] ++ u = _
    simp
  · rename_i p hp
    obtain ⟨u, e, hu⟩ := (repaint_held (Buffered.refl _)).ok h
    refine ⟨(p s.promptN).map (fun b => if b = 0x0A then 0x0D else b), u, ?_, hu⟩
    rw [e]
    have e2 : (0x0D :: p s.promptN).map (fun b => if b = 0x0A then 0x0D else b) =
        0x0D :: (p s.promptN).map (fun b => if b = 0x0A then 0x0D else b) := by
      rw [List.map_cons, if_neg (by decide)]
    show s.out ++ [.flush] ++ [.lit ((0x0D :: p s.promptN).map _)] ++ u = _
    rw [e2]
    simp

/-- Output without flush that fits stays in the buffer. -/
theorem held_run {C : Cfg} (u : List Tok) (hu : ∀ x ∈ u, x.held = true) {w : Writer} (h : w.room = none)
    (hf : w.failed = false) (hw : w.Fine) (hl : w.buf.length + (bytesOf C u).length ≤ w.size) :
    (w.run C u).sent = w.sent ∧ (w.run C u).buf = w.buf ++ bytesOf C u := by
  induction u generalizing w with
  | nil => exact ⟨rfl, by simp [Writer.run, bytesOf]⟩
  | cons t u ih =>
    have hb : bytesOf C (t :: u) = t.bytes C ++ bytesOf C u := rfl
    rw [hb, List.length_append] at hl
    have e : w.tok C t = w.write (t.bytes C) := by
      have := hu t (by simp)
      cases t <;> first | rfl | cases this
    obtain ⟨a1, a2, a3, a4, a5, a6⟩ := Writer.write_room (p := t.bytes C) h hf hw
    have a6 := a6 (by omega)
    have a7 : (w.write (t.bytes C)).buf = w.buf ++ t.bytes C := by
      rw [a6, List.append_assoc] at a5
      exact List.append_cancel_left a5
    have := ih (fun x hx => hu x (by simp [hx])) (w := w.write (t.bytes C)) a1 a2 a3
      (by rw [a7, a4, List.length_append]; omega)
    show ((w.tok C t).run C u).sent = _ ∧ ((w.tok C t).run C u).buf = _
    rw [e, this.1, this.2, a6, a7, hb, List.append_assoc]
    exact ⟨rfl, rfl⟩

/-- **Refuted.**  Whenever a key is awaited, let the window change its width.  Then the two
goroutines can come to where the callback is over, nobody is in the mutex, the key is still awaited, and nothing
of what the callback wrote has arrived (if it fits into the buffer, which has 4096 bytes). -/
theorem C55_refuted {K : Code} {joins early : Bool} {E : Env} {w : World} (hF : Faithful E K) (hb : BuiltinKeys E)
    (hn : noResize w.input = w.input) {s s1 : St} (hr : Reachable E w s) {w' : Int}
    (h : onResize E (s.emit .await) w' = .ok s1) :
    ∃ g u, Steps K joins early (G.init K E w) g ∧ g.ed = .waiting ∧ g.wa = .select ∧ g.lock = none ∧
      g.mem.out = s.out ++ [.await, .flush] ++ u ∧ bytesOf E.cfg u ≠ [] ∧
      ∀ W, Fresh W → (bytesOf E.cfg u).length ≤ W.size →
        (W.run E.cfg g.mem.out).sent = bytesOf E.cfg s.out ∧ (W.run E.cfg g.mem.out).buf = bytesOf E.cfg u := by
  obtain ⟨log, hs, -⟩ := follow (joins := joins) (early := early) hF hb hn hr
  have t1 : Steps K joins early { mem := s, ed := .idle, log := log }
      ({ mem := s.emit .await, ed := .waiting, log := log } : G K) := .one (fun _ => nofun) (.flush rfl)
  have t2 : Steps K joins early { mem := s.emit .await, ed := .waiting, log := log }
      ({ mem := s.emit .await, ed := .waiting, wa := .locking w', log := log } : G K) :=
    .one (fun _ => nofun) (.tick w' (fun _ => trivial) rfl)
  have t3 : Steps K joins early { mem := s.emit .await, ed := .waiting, wa := .locking w', log := log }
      ({ mem := s.emit .await, ed := .waiting, wa := .running (K.call w'), lock := some .watcher,
         log := log ++ [.resize w'] } : G K) := .one (fun _ => nofun) (.watchLock rfl rfl)
  have r := hF.back w' (s.emit .await)
  have hp : resizePart E w' (s.emit .await) = .ok (s1, ()) := by unfold resizePart; rw [h]; rfl
  rw [hp] at r
  have t4 := (run_back (joins := joins) (early := early) r
    (g := { mem := s.emit .await, ed := .waiting, wa := .running (K.call w'), lock := some .watcher,
            log := log ++ [.resize w'] }) rfl rfl).1 s1 rfl
  have t5 : Steps K joins early
      { mem := s1, ed := .waiting, wa := .unlocking, lock := some .watcher, log := log ++ [.resize w'] }
      ({ mem := s1, ed := .waiting, log := log ++ [.resize w'] } : G K) := .one (fun _ => nofun) (.watchUnlock rfl)
  obtain ⟨c, u, e, hu⟩ := onResize_held h
  have e' : s1.out = s.out ++ [.await, .flush] ++ .lit (0x0D :: c) :: u := by
    rw [e]
    show s.out ++ [.await] ++ _ = _
    simp
  refine ⟨_, .lit (0x0D :: c) :: u, ((((hs.trans t1).trans t2).trans t3).trans t4).trans t5, rfl, rfl, rfl, e', ?_, ?_⟩
  · show (0x0D :: c) ++ bytesOf E.cfg u ≠ []
    simp
  · intro W hW hl
    have hsent := sent_flush (C := E.cfg) hW (s.out ++ [.await]) (t := .flush) (.inl rfl)
    have e2 : s.out ++ [.await] ++ [.flush] = s.out ++ [.await, .flush] := by simp
    rw [e2] at hsent
    have hb2 : bytesOf E.cfg (s.out ++ [.await, .flush]) = bytesOf E.cfg s.out := by
      unfold bytesOf; rw [List.flatMap_append]; simp [Tok.bytes]
    obtain ⟨a1, a2, a3, a4, -⟩ := run_room (C := E.cfg) (s.out ++ [.await, .flush]) hW.2.2.2.1 hW.2.2.2.2 hW.fine
    have hh := held_run (C := E.cfg) (.lit (0x0D :: c) :: u) (fun x hx => by
      rcases List.mem_cons.mp hx with hx | hx
      · rw [hx]; rfl
      · exact hu x hx) a1 a2 a3 (by rw [hsent.2, a4]; simpa using hl)
    show (W.run E.cfg s1.out).sent = _ ∧ (W.run E.cfg s1.out).buf = _
    rw [e', run_concat, hh.1, hh.2, hsent.1, hsent.2, hb2]
    exact ⟨rfl, rfl⟩

/-! ## Cases -/

/-- `bufio.NewWriter(os.Stdout)`. -/
def Example.stdout : Writer := { size := 4096 }

theorem Example.stdout_fresh : Fresh stdout := ⟨by decide, rfl, rfl, rfl, rfl⟩

/-- A small buffer: what does not fit goes out early, in order. -/
example : (({ size := 4 } : Writer).write [1, 2, 3]).write [4, 5, 6] =
    { size := 4, buf := [5, 6], sent := [1, 2, 3, 4] } := by decide

/-- A terminal that fails after two bytes. -/
example : ((({ size := 4, room := some 2 } : Writer).write [1, 2, 3]).flush.write [4]).sent = [1, 2] := by decide

/-- The hypotheses of `C55_refuted`: after `ab` was typed, the window shrinks to 40 columns; 39 bytes
wait in the buffer. -/
example : ∃ s s1, Reachable (env plain) { input := keys ["a", "b", "\r"] } s ∧
    onResize (env plain) (s.emit .await) 40 = .ok s1 ∧
    (stdout.run plain s1.out).buf.length = 39 := by
  obtain ⟨s, h1, h2⟩ := gets_ok (E := env plain) (w := { input := keys ["a", "b", "\r"] }) (n := 2)
    (p := fun s => match onResize (env plain) (s.emit .await) 40 with
      | .ok s1 => decide ((stdout.run plain s1.out).buf.length = 39)
      | .error _ => false) (by decide +kernel)
  split at h2
  · rename_i p hp
    exact ⟨s, p, h1, hp, of_decide_eq_true h2⟩
  · cases h2

end Readline
