import Verif.Proof.AmpleCheck
import Verif.Proof.Plain
import Verif.Proof.Waits
import Verif.Props.C03
/-!
# C27: the edited line never wraps onto the next row

`Row.high` (Spec/Row.lean) remembers the column behind the rightmost column that was printed to.

* `C27_repaint_partial`: a repaint prints nothing beyond the view (three columns less than the
  terminal), prediction included, and leaves the cursor left of its end.  The tabs must be at their
  columns and the cursor in the view.
* `C27_step_partial`: the same for every event of a `Steady` session (see C26): the commands that
  do not repaint included.
* `C27_partial`: nothing a `Steady` session prints from the first prompt to the end gets beyond the
  view of the widest terminal it has seen.
* `C27_tabs_partial`: the same for lines with tabs that always fit (`Unscrolled`, see C26).

Without the assumptions it is false: Ctrl-L under a prompt wider than the terminal
(`C27_refuted_prompt`), moving over (`C27_refuted_forward`) or exchanging (`C27_refuted_swap`) a unit
much wider than the ones that leave the view for it.  A tab whose column has changed is printed beyond
the view, although not beyond the terminal (`C27_refuted_tab`).
-/
namespace Readline
open Spec Example

variable {E : Env} {lit : Bytes → Row → Row} {s s1 s' : St} {w : World}

/-- What is written from `s` to `s'` prints nothing beyond column `lim`. -/
def Within (C : Cfg) (lit : Bytes → Row → Row) (lim : Int) (s s' : St) : Prop :=
  ∃ t, s'.out = s.out ++ t ∧ ∀ r : Row, (Row.run C lit r t).high ≤ max r.high lim

theorem Paints.within {C : Cfg} {lim : Int} {P : Row → Prop} (h : Paints C lit lim s s' P) : Within C lit lim s s' := by
  obtain ⟨t, e, hr⟩ := h
  exact ⟨t, e, fun r => (hr r).2⟩

namespace Within
variable {C : Cfg} {lim lim' : Int}

theorem refl : Within C lit lim s s := ⟨[], by simp, fun r => Int.le_max_left _ _⟩

theorem trans (h : Within C lit lim s s1) (h' : Within C lit lim s1 s') : Within C lit lim s s' := by
  obtain ⟨t1, e1, h1⟩ := h
  obtain ⟨t2, e2, h2⟩ := h'
  refine ⟨t1 ++ t2, by rw [e2, e1, List.append_assoc], fun r => ?_⟩
  rw [run_append]
  have := h2 (Row.run C lit r t1)
  have := h1 r
  omega

theorem mono (h : Within C lit lim s s1) (hl : lim ≤ lim') : Within C lit lim' s s1 := by
  obtain ⟨t, e, hr⟩ := h
  exact ⟨t, e, fun r => by have := hr r; omega⟩

theorem emit (h : Within C lit lim s s1) (t : Tok) (ht : ∀ r : Row, (Row.receive C lit r t).high = r.high) :
    Within C lit lim s (s1.emit t) := by
  refine h.trans ⟨[t], rfl, fun r => ?_⟩
  show (Row.receive C lit r t).high ≤ _
  rw [ht]; omega

theorem of_out (h : Within C lit lim s s1) (e : s'.out = s1.out := by rfl) : Within C lit lim s s' := by
  obtain ⟨t, e1, r⟩ := h
  exact ⟨t, e.trans e1, r⟩
end Within

theorem C27_repaint_partial (hS : Sane E lit) (ha : s.aligned E) (hv : InView E s) (h : repaint E s = .ok s') :
    ∃ t, s'.out = s.out ++ t ∧ ∀ r : Row,
      (Row.run E.cfg lit r t).high ≤ max r.high (s.termWidth - 3) ∧
      s.topColumn ≤ (Row.run E.cfg lit r t).col ∧ (Row.run E.cfg lit r t).col < s.termWidth - 3 := by
  obtain ⟨x, e⟩ := updateSuffix_eq E s
  have ha' : (updateSuffix E s).aligned E := by rw [e]; exact ha
  have hv' : InView E (updateSuffix E s) := by rw [e]; exact ⟨hv.low, hv.mid, hv.high, hv.fits⟩
  obtain ⟨hm, ⟨b, o, eb⟩, view, pred, h1, h2, t, ht, hr⟩ :=
    repaintNoSuffix_row (lit := lit) hS.width hS.color1 hS.color2 ha' hv' h
  refine ⟨t, by rw [ht, e], fun r => ?_⟩
  obtain ⟨h3, h4⟩ := hr r
  rw [St.lim] at h4
  have h5 := h3.col
  rw [e] at h4 h5
  replace h5 : (Row.run E.cfg lit r t).col = s.topColumn + columns E.cfg (s.between s.viewStart s.cursor) := h5
  have h6 := hv.fits
  have h7 := (hS.wide (s.between s.viewStart s.cursor)).columns
  have h8 := St.lim s
  refine ⟨h4, ?_, ?_⟩ <;> omega

/-- The steps between two keys. -/
theorem step_within (hS : Sane E lit) (hb : BuiltinKeys E) (hw : Steady E w) (h : Reachable E w s)
    (hst : step E s = .ok (s', none)) (hk : noResize s'.input ≠ []) :
    ∃ t t', s.out = w.out ++ t ∧ s'.out = s.out ++ t' ∧ ∀ r : Row,
      (Row.run E.cfg lit { Row.run E.cfg lit r t with high := 0 } t').high ≤ max 0 (s'.termWidth - 3) ∧
      (Row.run E.cfg lit r (t ++ t')).high ≤ max (Row.run E.cfg lit r t).high (s'.termWidth - 3) := by
  have hin := reachable_input hb h
  obtain ⟨ev, rest, h1, h2⟩ := step_sublist hb hst
  have hsub : s'.input.Sublist s.input := by rw [h1]; exact h2.trans (List.sublist_cons_self _ _)
  obtain ⟨t, e, hr⟩ := session_shows hS hb hw h (noResize_sub hsub hk)
  have hV := (hr ⟨0, fun _ => none, 0⟩).inView hS
  obtain ⟨t', e', hr'⟩ := step_keeps hS hb hst hV (hw.fine _ h) (hw.fine _ (.step h hst)) (hw.errors.sub hin) hk
    fun k rest hi => ⟨hw.prompt _ _ k rest h hst hi, hw.swap _ k rest h hi⟩
  refine ⟨t, t', e, e', fun r => ⟨?_, ?_⟩⟩
  · have := hr r
    exact (hr' { Row.run E.cfg lit r t with high := 0 }
      ⟨this.low, this.mid, this.high, this.col, this.cells⟩).2
  · rw [run_append]
    exact (hr' _ (hr r)).2

/-- Every event, and where the cursor is afterwards. -/
theorem C27_step_partial (hS : Sane E lit) (hb : BuiltinKeys E) (hw : Steady E w) (h : Reachable E w s)
    (hst : step E s = .ok (s', none)) (hk : noResize s'.input ≠ []) :
    ∃ t t', s.out = w.out ++ t ∧ s'.out = s.out ++ t' ∧ ∀ r : Row,
      (Row.run E.cfg lit { Row.run E.cfg lit r t with high := 0 } t').high ≤ max 0 (s'.termWidth - 3) ∧
      s'.topColumn ≤ (Row.run E.cfg lit r (t ++ t')).col ∧
      (Row.run E.cfg lit r (t ++ t')).col < s'.termWidth - 3 := by
  obtain ⟨t, t', e, e', hr⟩ := step_within hS hb hw h hst hk
  refine ⟨t, t', e, e', fun r => ⟨(hr r).1, ?_⟩⟩
  obtain ⟨u, eu, hu⟩ := session_shows hS hb hw (.step h hst) hk
  have : u = t ++ t' := by
    rw [e', e, List.append_assoc] at eu
    exact (List.append_cancel_left eu).symm
  rw [← this]
  have hs := hu r
  have h5 := hs.col
  have h6 := (hs.inView hS).fits
  have h7 := (hS.wide (s'.between s'.viewStart s'.cursor)).columns
  have h8 := St.lim s'
  omega

/-- The end of a session. -/
theorem last_within (hS : Sane E lit) (hb : BuiltinKeys E) (ha : s.aligned E) (hv : InView E s) {r : RLRes}
    (h : step E s = .ok (s', some r)) : Within E.cfg lit (s.termWidth - 3) s s' := by
  have hend : ∀ {s1 : St}, Within E.cfg lit (s.termWidth - 3) s s1 →
      Within E.cfg lit (s.termWidth - 3) s (deferred s1) := by
    intro s1 h1
    exact (h1.emit .cursorOn fun _ => rfl).emit .flush fun _ => rfl
  cases hi : s.input with
  | nil =>
    rw [step, hi] at h
    cases h
    exact hend (Within.refl.emit .await fun _ => rfl)
  | cons ev rest =>
    cases ev with
    | err e =>
      rw [step, hi] at h
      cases h
      exact hend ((Within.refl.emit .await fun _ => rfl).of_out)
    | resize n =>
      rw [step, hi] at h
      obtain ⟨_, _, h⟩ := bind_ok.mp h
      cases h
    | key k =>
      rw [step, hi] at h
      replace h : execCmd E (lookupCommand E k) { s.emit .await with input := rest } = .ok (s', some r) := h
      unfold execCmd at h
      obtain ⟨s0, hs0⟩ : ∃ s0, ({ s.emit .await with input := rest }.emit .cursorOff : St) = s0 := ⟨_, rfl⟩
      have h0 : Within E.cfg lit (s.termWidth - 3) s s0 := by
        rw [← hs0]
        exact Within.emit (s1 := { s.emit .await with input := rest })
          ((Within.refl.emit .await fun _ => rfl).of_out) .cursorOff fun _ => rfl
      have ha0 : s0.aligned E := by rw [← hs0]; exact ha
      have hv0 : InView E s0 := by rw [← hs0]; exact ⟨hv.low, hv.mid, hv.high, hv.fits⟩
      have hw0 : s0.termWidth = s.termWidth := by rw [← hs0]; rfl
      dsimp only at h
      rw [hs0] at h
      obtain ⟨⟨q, rc⟩, h1, h⟩ := bind_ok.mp h
      dsimp only at h
      -- the state the line is finished in
      have hq : rc ≠ .cont → q.out = s0.out ∧ q.aligned E ∧ InView E q ∧ q.termWidth = s.termWidth := by
        intro hrc
        have hc := call_result (e := s0.ed) (BuiltinKeys.builtin hb k) (L := E.logic) (by
          rw [← (call_obs (BuiltinKeys.builtin hb k) h1).2]; exact hrc)
        rcases hc with hc | hc | ⟨hc, hl⟩
        · rw [hc] at h1
          have := pure_ok.mp h1
          cases this
          exact ⟨rfl, ha0, hv0, hw0⟩
        · rw [hc] at h1
          have := pure_ok.mp h1
          cases this
          refine ⟨rfl, ?_, ⟨Int.le_refl _, Int.le_refl _, Int.le_refl _, ?_⟩, hw0⟩
          · exact St.noTabs_aligned (E := E) (by intro p hp; cases hp)
          · have h6 := hv0.fits
            have h7 := (hS.wide (s0.between s0.viewStart s0.cursor)).columns
            show (0 : Int) < s0.viewWidth
            omega
        · rw [hc] at h1
          simp only [Cmd.call, cmdDeleteOrAbort] at h1
          have hlen : ¬ s0.len > 0 := by
            have : s0.line.length = 0 := by
              have : s0.line = [] := hl
              rw [this]; rfl
            rw [St.line, List.length_map] at this
            unfold St.len
            omega
          rw [if_neg hlen] at h1
          have := pure_ok.mp h1
          cases this
          exact ⟨rfl, ha0, hv0, hw0⟩
      have hfin : rc ≠ .cont → ∀ p, finish E (q.emit .cursorOn) rc = .ok p →
          Within E.cfg lit (s.termWidth - 3) s p.1 := by
        intro hrc p hf
        obtain ⟨q1, q2, q3, q4⟩ := hq hrc
        unfold finish at hf
        obtain ⟨s2, h2, hf⟩ := bind_ok.mp hf
        have hw1 : Within E.cfg lit (s.termWidth - 3) s (q.emit .cursorOn) :=
          Within.emit (h0.of_out q1) _ fun _ => rfl
        have hw2 : Within E.cfg lit (s.termWidth - 3) s s2 := by
          split at h2
          · have ha2 : ({ q.emit .cursorOn with suffix := none } : St).aligned E := q2
            have hv2 : InView E { q.emit .cursorOn with suffix := none } := ⟨q3.low, q3.mid, q3.high, q3.fits⟩
            obtain ⟨_, _, _, _, _, _, hp⟩ :=
              repaintNoSuffix_row (lit := lit) hS.width hS.color1 hS.color2 ha2 hv2 h2
            rw [St.lim] at hp
            refine Within.trans (s1 := { q.emit .cursorOn with suffix := none }) hw1.of_out (hp.within.mono ?_)
            show q.termWidth - 3 ≤ _
            omega
          · have := pure_ok.mp h2
            cases this
            exact hw1
        have : p.1 = deferred ((match E.lineFeed with
          | some f => s2.emit (.lit (f rc))
          | none => s2.emit (.lit [0x0A])).emit .flush) := by
          rw [← pure_ok.mp hf]
          cases E.lineFeed <;> rfl
        rw [this]
        apply hend
        refine Within.emit ?_ _ fun _ => rfl
        split
        · exact hw2.emit _ fun r => hS.high _ r
        · exact hw2.emit _ fun r => hS.high _ r
      cases rc with
      | cont => cases h
      | enter =>
        obtain ⟨p, hf, h⟩ := bind_ok.mp h
        have := pure_ok.mp h
        cases this
        exact hfin (by simp) p hf
      | intr =>
        obtain ⟨p, hf, h⟩ := bind_ok.mp h
        have := pure_ok.mp h
        cases this
        exact hfin (by simp) p hf
      | abort =>
        obtain ⟨p, hf, h⟩ := bind_ok.mp h
        have := pure_ok.mp h
        cases this
        exact hfin (by simp) p hf

theorem session_within (hS : Sane E lit) (hb : BuiltinKeys E) (hw : Steady E w) {W : Int}
    (hW : w.termWidth ≤ W) (hR : ∀ n, .resize n ∈ w.input → n ≤ W) (h : Reachable E w s) (hk : noResize s.input ≠ []) :
    Within E.cfg lit (W - 3) { out := w.out } s := by
  have hwidth : ∀ s, Reachable E w s → s.termWidth ≤ W := by
    intro s h
    rcases reachable_width (BuiltinKeys.builtin hb) h with h | h
    · rw [h]; exact hW
    · exact hR _ h
  induction h with
  | start h =>
    obtain ⟨t, e, hr⟩ := start_paints_prompt hS h (hw.fine _ (.start h))
    have := hwidth _ (.start h)
    exact ⟨t, e, fun r => by have := (hr r).2; omega⟩
  | @step s s' h hst ih =>
    obtain ⟨ev, rest, h1, h2⟩ := step_sublist hb hst
    have hsub : s'.input.Sublist s.input := by rw [h1]; exact h2.trans (List.sublist_cons_self _ _)
    obtain ⟨u, eu, hu⟩ := ih (noResize_sub hsub hk)
    obtain ⟨t, t', e, e', hr⟩ := step_within hS hb hw h hst hk
    have : u = t := by
      rw [e] at eu
      exact (List.append_cancel_left eu).symm
    subst this
    refine ⟨u ++ t', by rw [e', e, List.append_assoc], fun r => ?_⟩
    have := (hr r).2
    have := hu r
    have := hwidth _ (.step h hst)
    omega

/-- A whole session, unless it ends because the input is exhausted. -/
theorem C27_partial (hS : Sane E lit) (hb : BuiltinKeys E) (hw : Steady E w) {W : Int}
    (hW : w.termWidth ≤ W) (hR : ∀ n, .resize n ∈ w.input → n ≤ W) {res : RLRes} (h : readLine E w = .ok (s', res))
    (he : res.err ≠ .tty []) :
    ∃ t, s'.out = w.out ++ t ∧ ∀ r : Row, (Row.run E.cfg lit r t).high ≤ max r.high (W - 3) := by
  obtain ⟨s, hr, hst⟩ := readLine_reachable h
  have hk : noResize s.input ≠ [] := by
    have hends := step_ends hb hst
    cases hends with
    | enter hi _ => rw [hi]; simp [noResize]
    | interrupt hi _ => rw [hi]; simp [noResize]
    | eof hi _ _ => rw [hi]; simp [noResize]
    | error hi => rw [hi]; simp [noResize]
    | exhausted hi => exact absurd rfl he
  have h1 := session_within hS hb hw hW hR hr hk
  have h2 := last_within hS hb (reachable_aligned hb hr) (session_inView hS hb hw hr hk) hst
  have h3 : s.termWidth ≤ W := by
    rcases reachable_width (BuiltinKeys.builtin hb) hr with h | h
    · rw [h]; exact hW
    · exact hR _ h
  exact h1.trans (h2.mono (by omega))

/-- The cursor of a row that shows the whole line is in the view. -/
theorem entire_inView (hS : Sane E lit) (hA : Ample E s) {r : Row} (h : Entire E s r) : InView E s := by
  refine ⟨by rw [h.start]; omega, by rw [h.start]; exact h.low, h.high, ?_⟩
  rw [h.start]
  exact hA.between hS _ _

theorem session_within_tabs (hS : Sane E lit) (hb : BuiltinKeys E) (hw : Unscrolled E w) {W : Int}
    (hW : w.termWidth ≤ W) (hR : ∀ n, .resize n ∈ w.input → n ≤ W) (h : Reachable E w s) (hk : noResize s.input ≠ []) :
    Within E.cfg lit (W - 3) { out := w.out } s := by
  have hwidth : ∀ s, Reachable E w s → s.termWidth ≤ W := by
    intro s h
    rcases reachable_width (BuiltinKeys.builtin hb) h with h | h
    · rw [h]; exact hW
    · exact hR _ h
  induction h with
  | start h =>
    obtain ⟨t, e, hr⟩ := start_lays hS hw.predict h (hw.ample _ (.start h))
    have := hwidth _ (.start h)
    exact ⟨t, e, fun r => by have := (hr r).2; omega⟩
  | @step s s' h hst ih =>
    have hin := reachable_input hb h
    obtain ⟨ev, rest, h1, h2⟩ := step_sublist hb hst
    have hsub : s'.input.Sublist s.input := by rw [h1]; exact h2.trans (List.sublist_cons_self _ _)
    obtain ⟨u, eu, hu⟩ := ih (noResize_sub hsub hk)
    obtain ⟨t, e, hr⟩ := session_entire hS hb hw h (noResize_sub hsub hk)
    have h0 := hr ⟨0, fun _ => none, 0⟩
    obtain ⟨t', e', hr'⟩ := step_upholds hS hw.predict hb hst h0.start h0.low (reachable_aligned hb h) (hw.ample _ h)
      (hw.ample _ (.step h hst)) (hw.errors.sub hin) hk (fun k rest hi => hw.swap _ k rest h hi)
    have : u = t := by
      rw [e] at eu
      exact (List.append_cancel_left eu).symm
    subst this
    refine ⟨u ++ t', by rw [e', e, List.append_assoc], fun r => ?_⟩
    rw [run_append]
    have := (hr' _ (hr r)).2
    have := hu r
    have := hwidth _ (.step h hst)
    omega

/-- Lines with tabs. -/
theorem C27_tabs_partial (hS : Sane E lit) (hb : BuiltinKeys E) (hw : Unscrolled E w) {W : Int}
    (hW : w.termWidth ≤ W) (hR : ∀ n, .resize n ∈ w.input → n ≤ W) {res : RLRes} (h : readLine E w = .ok (s', res))
    (he : res.err ≠ .tty []) :
    ∃ t, s'.out = w.out ++ t ∧ ∀ r : Row, (Row.run E.cfg lit r t).high ≤ max r.high (W - 3) := by
  obtain ⟨s, hr, hst⟩ := readLine_reachable h
  have hk : noResize s.input ≠ [] := by
    have hends := step_ends hb hst
    cases hends with
    | enter hi _ => rw [hi]; simp [noResize]
    | interrupt hi _ => rw [hi]; simp [noResize]
    | eof hi _ _ => rw [hi]; simp [noResize]
    | error hi => rw [hi]; simp [noResize]
    | exhausted hi => exact absurd rfl he
  have h1 := session_within_tabs hS hb hw hW hR hr hk
  obtain ⟨t, e, hs⟩ := session_entire hS hb hw hr hk
  have h2 := last_within hS hb (reachable_aligned hb hr) (entire_inView hS (hw.ample _ hr) (hs ⟨0, fun _ => none, 0⟩)) hst
  have h3 : s.termWidth ≤ W := by
    rcases reachable_width (BuiltinKeys.builtin hb) hr with h | h
    · rw [h]; exact hW
    · exact hR _ h
  exact h1.trans (h2.mono (by omega))

/-- The same with conditions on the texts, the keys and the terminal alone (see C26). -/
theorem C27_ordinary_partial {P : Nat → Prop} (hS : Sane E lit) (hb : BuiltinKeys E) (ho : Ordinary P E w) {W : Int}
    (hW : w.termWidth ≤ W) (hR : ∀ n, .resize n ∈ w.input → n ≤ W) {res : RLRes} (h : readLine E w = .ok (s', res))
    (he : res.err ≠ .tty []) :
    ∃ t, s'.out = w.out ++ t ∧ ∀ r : Row, (Row.run E.cfg lit r t).high ≤ max r.high (W - 3) :=
  C27_partial hS hb (ordinary_steady hb ho) hW hR h he

/-! ## Examples -/

namespace Example

/-- Type, move, scroll, delete, walk through the history, search, undo, clear, resize. -/
def moves : World where
  termWidth := 12
  input := keys ["a", "日", "b", "c", "d", "\x02", "\x02", "x", "\x01", "\x06", "\x06", "\x06", "\x06", "\x06", "\x05",
    "\x08", "\x10", "\x10", "\x0b", "\x1a", "\x12", "g", "\r", "\x17", "\x1bb", "\x1bf", "\x0c", "\x1f"] ++
    [.resize 20, .resize 9, .key (b "\r")]

def movesEnv : Env :=
  { env plain with history := [b "git status", b "日本語の行"], predictColor := (b "\x1b[3m", b "\x1b[0m") }

theorem moves_steady : Steady movesEnv moves :=
  steadyCheck_ok (k := 1) (defaultKeys_builtin plain) (by decide +kernel)

def narrow (W : Int) : Ev → Bool
  | .resize n => decide (n ≤ W)
  | _ => true

theorem narrow_ok {W n : Int} {evs : List Ev} (h : evs.all (narrow W) = true) (hn : .resize n ∈ evs) : n ≤ W :=
  of_decide_eq_true (List.all_eq_true.mp h _ hn)

example : ∃ s' t, readLine movesEnv moves = .ok (s', ⟨b "git status", .nil⟩) ∧ s'.out = [] ++ t ∧
    ∀ r : Row, (Row.run plain mute r t).high ≤ max r.high 17 := by
  obtain ⟨s', h⟩ : ∃ s', readLine movesEnv moves = .ok (s', ⟨b "git status", .nil⟩) := by
    have h : outcome (readLine movesEnv moves) = .inr (b "git status", .nil) := by decide +kernel
    cases hr : readLine movesEnv moves with
    | error p => rw [hr] at h; cases h
    | ok p =>
      obtain ⟨s, r⟩ := p
      rw [hr] at h
      cases r
      cases h
      exact ⟨s, rfl⟩
  obtain ⟨t, h1, h2⟩ := C27_partial (E := movesEnv) (lit := mute) (W := 20) (mute_sane plain_widths.1 plain_widths.2)
    (defaultKeys_builtin plain) moves_steady (by decide) (fun n hn => narrow_ok (by decide +kernel) hn) h (by decide)
  exact ⟨s', t, h, h1, h2⟩

/-- Tabs, on a terminal of 32 columns that is made wider. -/
def tabMoves : World where
  termWidth := 32
  input := keys ["a", "\t", "b", "\t", "c", "\x01", "x", "\x06", "\x06", "\x08", "\x1f"] ++ [.resize 44] ++
    keys ["\x0b", "\x19", "\x02", "日", "\x05", "\r"]

example : ∃ s' t, readLine (env plain) tabMoves = .ok (s', ⟨b "xa\tb\t日c", .nil⟩) ∧ s'.out = [] ++ t ∧
    ∀ r : Row, (Row.run plain mute r t).high ≤ max r.high 41 := by
  obtain ⟨s', h⟩ : ∃ s', readLine (env plain) tabMoves = .ok (s', ⟨b "xa\tb\t日c", .nil⟩) := by
    have h : outcome (readLine (env plain) tabMoves) = .inr (b "xa\tb\t日c", .nil) := by decide +kernel
    cases hr : readLine (env plain) tabMoves with
    | error p => rw [hr] at h; cases h
    | ok p =>
      obtain ⟨s, r⟩ := p
      rw [hr] at h
      cases r
      cases h
      exact ⟨s, rfl⟩
  obtain ⟨t, h1, h2⟩ := C27_tabs_partial (E := env plain) (lit := mute) (W := 44) (mute_sane plain_widths.1 plain_widths.2)
    (defaultKeys_builtin plain) (unscrolledCheck_ok (defaultKeys_builtin plain) (by decide +kernel)) (by decide)
    (fun n hn => narrow_ok (by decide +kernel) hn) h (by decide)
  exact ⟨s', t, h, h1, h2⟩

end Example

/-! ## Refutations -/

/-- Something was printed beyond column `lim w`, on an empty row. -/
def beyond (E : Env) (lim : Int → Int) (s : St) : Bool :=
  decide (lim s.termWidth < (Row.run E.cfg mute ⟨0, fun _ => none, 0⟩ s.out).high)

theorem beyond_ok {n : Nat} {lim : Int → Int} (h : gets E w n (beyond E lim) = true) :
    ∃ s, Reachable E w s ∧ lim s.termWidth < (Row.run E.cfg mute ⟨0, fun _ => none, 0⟩ s.out).high := by
  obtain ⟨s, h1, h2⟩ := gets_ok h
  exact ⟨s, h1, of_decide_eq_true h2⟩

/-- Ctrl-L under a prompt of twelve columns on a terminal of twelve columns: two letters are printed
behind the prompt.  (At the start such a prompt is followed by a new line.) -/
theorem C27_refuted_prompt : ∃ s, Reachable { env plain with prompt := some fun _ => b "0123456789> " }
      { termWidth := 12, input := keys ["a", "b", "\x0c", "\r"] } s ∧
    s.termWidth < (Row.run plain mute ⟨0, fun _ => none, 0⟩ s.out).high :=
  beyond_ok (E := { env plain with prompt := some fun _ => b "0123456789> " }) (n := 3) (lim := id) (by decide +kernel)

/-- Ctrl-F over `<1F600>` at the end of the view: two units are scrolled away, seven columns are
printed. -/
theorem C27_refuted_forward : ∃ s, Reachable (env { plain with surrogateOk := false })
      { termWidth := 14, input := keys ["😀", "\x01", "a", "a", "a", "a", "a", "a", "a", "a", "\x06", "\r"] } s ∧
    s.termWidth < (Row.run { plain with surrogateOk := false } mute ⟨0, fun _ => none, 0⟩ s.out).high :=
  beyond_ok (E := env { plain with surrogateOk := false }) (n := 11) (lim := id) (by decide +kernel)

/-- Ctrl-T before `<1F600>` at the end of the view. -/
theorem C27_refuted_swap : ∃ s, Reachable (env { plain with surrogateOk := false })
      { termWidth := 14, input := keys ["😀", "\x01", "a", "a", "a", "a", "a", "a", "a", "a", "\x14", "\r"] } s ∧
    s.termWidth < (Row.run { plain with surrogateOk := false } mute ⟨0, fun _ => none, 0⟩ s.out).high :=
  beyond_ok (E := env { plain with surrogateOk := false }) (n := 11) (lim := id) (by decide +kernel)

/-- Ten letters, a tab, Ctrl-A and two letters on a terminal of twenty columns: the view is chosen with
the old width of the tab. -/
theorem C27_refuted_tab : ∃ s, Reachable (env plain)
      { termWidth := 20, input := keys ["a", "a", "a", "a", "a", "a", "a", "a", "a", "a", "\t", "\x01", "x", "x", "\r"] } s ∧
    s.termWidth - 3 < (Row.run plain mute ⟨0, fun _ => none, 0⟩ s.out).high :=
  beyond_ok (E := env plain) (n := 14) (lim := fun x => x - 3) (by decide +kernel)

end Readline
