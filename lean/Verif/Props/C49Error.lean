import Verif.Props.C49
/-!
# C49: a terminal that fails in the middle of a line

The call that reads the broken line returns the error of the terminal and no text, and reads nothing beyond the failure.
-/
namespace Readline
open Spec

/-- Behind typed characters an error ends the loop. -/
theorem typing_stops {E : Env} {evs : List Ev} {ks : List (List Char)} (ht : Types E evs ks) {e : Bytes} {rest : List Ev} {s s' : St} {n : Nat}
    {r : RLRes} (hi : s.input = evs ++ .err e :: rest) (h : loop E n s = .ok (s', r)) : r = ⟨[], .tty e⟩ ∧ s'.input = rest := by
  induction ht generalizing s n with
  | nil =>
    have hi : s.input = .err e :: rest := hi
    cases n with
    | zero => cases h
    | succ n =>
      rw [loop] at h
      obtain ⟨⟨s1, o⟩, h1, h2⟩ := bind_ok.mp h
      unfold step at h1
      rw [hi] at h1
      cases pure_ok.mp h1
      cases pure_ok.mp h2
      exact ⟨rfl, rfl⟩
  | @resize evs ks m ht ih =>
    have hi : s.input = .resize m :: (evs ++ .err e :: rest) := hi
    cases n with
    | zero => cases h
    | succ n =>
      rw [loop] at h
      obtain ⟨⟨s1, o⟩, h1, h2⟩ := bind_ok.mp h
      obtain ⟨ho, he⟩ := step_resize_ed hi h1
      dsimp only at ho he
      subst ho
      refine ih ?_ h2
      have := congrArg Ed.input he
      simp at this
      exact this
  | @key evs ks k hk ha ht ih =>
    have hi : s.input = .key (utf8 k) :: (evs ++ .err e :: rest) := hi
    cases n with
    | zero => cases h
    | succ n =>
      rw [loop] at h
      obtain ⟨⟨s1, o⟩, h1, h2⟩ := bind_ok.mp h
      obtain ⟨ho, he'⟩ := (step_key_ed hi hk rfl h1).1 (by simp [Ed.call])
      have he : s1.ed = Ed.type E.logic { s.ed with input := evs ++ .err e :: rest } (utf8 k) := by
        rcases he' with he | ⟨hx, -⟩
        · exact he
        · cases hx
      dsimp only at ho
      subst ho
      have hfr := Ed.type_frame E.logic { s.ed with input := evs ++ .err e :: rest } (utf8 k)
      rw [← he] at hfr
      exact ih hfr.input h2

/-- The same for the call. -/
theorem broken_line {E : Env} {line : List Char} (hl : ∀ c ∈ line, lookupCommand E (utf8 [c]) = .selfInsert (utf8 [c])) {evs rest : List Ev}
    (h : noResize evs = line.map fun c => Ev.key (utf8 [c])) {w : World} {e : Bytes} (hi : w.input = evs ++ .err e :: rest) {s : St} {r : RLRes}
    (hr : readLine E w = .ok (s, r)) : r = ⟨[], .tty e⟩ ∧ s.input = rest := by
  unfold readLine at hr
  obtain ⟨s0, h1, h2⟩ := bind_ok.mp hr
  exact typing_stops (types_of_noResize hl h) (by rw [startSt_input h1, hi]) h2

/-- **A terminal that fails behind some characters**: the call returns that error and no text, after one `GetKey` for each character and one for
the error. -/
theorem C49_error {D : Device} {P : D.σ → List Char → Prop} (hP : Delivers D P) {e : Bytes} (hf : ∀ t, P t [] → (D.getKey t).1 = .error e) {E : Env}
    {w : World} {line : List Char} (hl : ∀ c ∈ line, lookupCommand E (utf8 [c]) = .selfInsert (utf8 [c])) {t t' : D.σ} {r : RLRes} {c : Int}
    (hp : P t line) (h : Call D E w t r c t') : r = ⟨[], .tty e⟩ ∧ t' = (D.calls (line.length + 1) t).2 := by
  obtain ⟨n, evs, h1, h2, h3⟩ := h
  by_cases hn : n ≤ line.length
  · exfalso
    have e1 : line = line.take n ++ line.drop n := (List.take_append_drop n line).symm
    have hlen : (line.take n).length = n := by rw [List.length_take]; omega
    have := (calls_line hP (line.take n) (line.drop n) (t := t) (by rw [← e1]; exact hp)).1
    rw [hlen] at this
    rw [this, List.map_map] at h1
    obtain ⟨s, g1, g2, -⟩ := h3 [.err []]
    have := (broken_line (line := line.take n) (fun c hc => hl c (List.mem_of_mem_take hc)) (rest := []) h1 rfl g1).2
    rw [g2] at this
    cases this
  · obtain ⟨m, rfl⟩ : ∃ m, n = line.length + (m + 1) := ⟨n - (line.length + 1), by omega⟩
    obtain ⟨c1, c2⟩ := calls_line hP line [] (t := t) (by simpa using hp)
    obtain ⟨a1, -⟩ := calls_append (D := D) line.length (m + 1) t
    have h4 : noResize evs = (line.map fun c => Ev.key (utf8 [c])) ++ .err e ::
        (D.calls m (D.getKey (D.calls line.length t).2).2).1.map answerEv := by
      rw [h1, a1, c1, List.map_append, List.map_map]
      simp only [Device.calls, List.map_cons]
      rw [hf _ c2]
      rfl
    obtain ⟨x1, x2, rfl, f2, f3⟩ := noResize_split h4
    obtain ⟨s, g1, g2, -⟩ := h3 []
    obtain ⟨b1, b2⟩ := broken_line (w := { w with input := (x1 ++ .err e :: x2) ++ [] }) hl f2 (rest := x2) (List.append_nil _) g1
    refine ⟨b1, ?_⟩
    rw [g2] at b2
    subst b2
    have hm : m = 0 := by
      have := congrArg List.length f3
      rw [List.length_map, calls_length] at this
      exact this.symm
    rw [h2, hm]

/-- tty10 fails where its input does. -/
theorem C49_tty10_error {e : Bytes} {rest : List (Except Bytes Bytes)} {t : Tty10} (h : Pending10 (.error e :: rest) t []) :
    (tty10Device.getKey t).1 = .error e := by
  obtain ⟨pre, pieces, h1, h2, h3, h4, -⟩ := h
  obtain ⟨rfl, h5⟩ := List.append_eq_nil_iff.mp h4
  have hp : pieces = [] := by
    cases pieces with
    | nil => rfl
    | cons p ps => exact absurd (List.append_eq_nil_iff.mp (List.flatten_cons ▸ h5)).1 (h3 p (by simp))
  subst hp
  obtain ⟨buf, chunks⟩ := t
  simp only at h1 h2
  subst h1 h2
  rfl

/-- The call that reads `a` and then the failure `E`. -/
theorem reads_broken : Reads (Example.env Example.plain) {} [.key [0x61], .err [0x45]] ⟨[], .tty [0x45]⟩ 1 :=
  reads_of_run (defaultKeys_builtin _) _ (.key [0x62]) _ _ rfl (by decide +kernel)

/-- tty10 with `a` in its first read and a failure in the second. -/
example : ∃ t', Pending10 [.error [0x45]] (⟨[], [.ok [0x61], .error [0x45]]⟩ : Tty10) ['a'] ∧
    Call tty10Device (Example.env Example.plain) {} (⟨[], [.ok [0x61], .error [0x45]]⟩ : Tty10) ⟨[], .tty [0x45]⟩ 1 t' :=
  ⟨_, ⟨[], [['a']], rfl, rfl, by decide, rfl, by decide⟩, 2, _, rfl, rfl, reads_broken⟩

end Readline
