import Verif.Model.Device
import Verif.Props.C04
import Verif.Props.C22
import Verif.Props.C23
import Verif.Props.C50
/-!
# C49: lines typed or pasted ahead are read by one ReadLine each

From the bytes or runes of the terminal to the results of consecutive calls of `ReadLine` on the
same `Editor` and Tty.

A program calls `ReadLine` once for each line (with any settings: prompt, history, colours, and so
on may change between the calls), and the terminal delivers the lines, each followed by CR, in
pieces of any size, at any time.  `C49_lines`: however the calls and the resizes interleave, the
results are the lines, in order, and what comes behind the last line is still there for the next call.
`C49_call_partial`: such a call does return (or the terminal is too narrow, or a tab stands beyond
column 32767, as in C04).  `C49_tty10`, `C49_tty8`, `C49_pilot`: the three Ttys of the library
deliver the characters one by one.

For tty10 the pieces have to end between characters and contain no ESC.  `C49_refuted` shows what
becomes of the text behind an ESC in the same piece.
-/
namespace Readline
open Spec

/-- A call of `ReadLine` on the Tty in state `t`: some number of keys is read, resizes come at any
time. -/
def Spec.Call (D : Device) (E : Env) (w : World) (t : D.σ) (r : RLRes) (c : Int) (t' : D.σ) : Prop :=
  ∃ n evs, noResize evs = (D.calls n t).1.map answerEv ∧ t' = (D.calls n t).2 ∧ Reads E w evs r c

/-- Consecutive calls of `ReadLine`; `c` is the field `Cursor` before the first. -/
inductive Spec.Calls (D : Device) : List Env → Int → D.σ → List RLRes → D.σ → Prop where
  | nil {c t} : Calls D [] c t [] t
  | cons {E Es w t r c' t1 rs t'} : Call D E w t r c' t1 → Calls D Es c' t1 rs t' →
      Calls D (E :: Es) w.cursor t (r :: rs) t'

/-- The characters of the line are bound to nothing and fit together (see C04), CR is bound to
`ACCEPT_LINE`, there is no default text. -/
structure Spec.Typeable (E : Env) (line : List Char) : Prop where
  default : E.default = []
  chars : ∀ c ∈ line, lookupCommand E (utf8 [c]) = .selfInsert (utf8 [c])
  fits : Fits E.cfg .nothing (line.map fun c => [c])
  enter : lookupCommand E [0x0D] = .acceptLine

/-- The Tty delivers these characters, one by one, and then is as described by `P`. -/
def Spec.Delivers (D : Device) (P : D.σ → List Char → Prop) : Prop :=
  ∀ t c cs, P t (c :: cs) → ∃ t', D.getKey t = (.ok (utf8 [c]), t') ∧ P t' cs

/-! ## Lemmas -/

theorem noResize_split {evs A B : List Ev} {x : Ev} (h : noResize evs = A ++ x :: B) :
    ∃ e1 e2, evs = e1 ++ x :: e2 ∧ noResize e1 = A ∧ noResize e2 = B := by
  induction evs generalizing A with
  | nil => cases A <;> simp [noResize] at h
  | cons y evs ih =>
    have other : ∀ z, noResize (z :: evs) = z :: noResize evs → z :: noResize evs = A ++ x :: B →
        ∃ e1 e2, z :: evs = e1 ++ x :: e2 ∧ noResize e1 = A ∧ noResize e2 = B := by
      intro z hz h
      cases A with
      | nil =>
        injection h with h1 h2
        exact ⟨[], evs, by rw [h1]; rfl, rfl, h2⟩
      | cons a A =>
        injection h with h1 h2
        obtain ⟨e1, e2, g1, g2, g3⟩ := ih h2
        subst h1
        refine ⟨z :: e1, e2, by rw [g1]; rfl, ?_, g3⟩
        cases z with
        | resize n =>
          exfalso
          have hm : Ev.resize n ∈ noResize (Ev.resize n :: evs) := by rw [hz]; exact List.mem_cons_self
          have h2 : ∀ l, (Ev.resize n) ∉ noResize l := by
            intro l
            induction l with
            | nil => simp [noResize]
            | cons y l ih => cases y <;> simp [noResize, ih]
          exact h2 _ hm
        | key k => simp [noResize, g2]
        | err e => simp [noResize, g2]
    cases y with
    | resize n =>
      obtain ⟨e1, e2, g1, g2, g3⟩ := ih (by simpa [noResize] using h)
      exact ⟨.resize n :: e1, e2, by rw [g1]; rfl, by simpa [noResize] using g2, g3⟩
    | key k => exact other (.key k) (by simp [noResize]) (by simpa [noResize] using h)
    | err e => exact other (.err e) (by simp [noResize]) (by simpa [noResize] using h)

theorem utf8_cr : utf8 ['\r'] = [0x0D] := by decide

/-- Events that are the characters of a line, with resizes. -/
theorem types_of_noResize {E : Env} {line : List Char}
    (hl : ∀ c ∈ line, lookupCommand E (utf8 [c]) = .selfInsert (utf8 [c])) {evs : List Ev}
    (h : noResize evs = line.map fun c => Ev.key (utf8 [c])) : Types E evs (line.map fun c => [c]) := by
  induction evs generalizing line with
  | nil =>
    cases line with
    | nil => exact .nil
    | cons c l => simp [noResize] at h
  | cons y evs ih =>
    cases y with
    | resize n => exact .resize (ih hl (by simpa [noResize] using h))
    | err e => cases line <;> simp [noResize] at h
    | key k =>
      cases line with
      | nil => simp [noResize] at h
      | cons c l =>
        simp only [noResize, List.map_cons, List.cons.injEq, Ev.key.injEq] at h
        obtain ⟨rfl, h⟩ := h
        exact .key (hl c (by simp)) (by intro d _ hx; cases hx) (ih (fun x hx => hl x (by simp [hx])) h)

theorem flatten_singletons (l : List Char) : (l.map fun c => [c]).flatten = l := by
  induction l with
  | nil => rfl
  | cons c l ih => simp [ih]

/-- A line typed with Enter, from the events. -/
theorem typed_line {E : Env} {line : List Char} (ht : Typeable E line) {evs rest : List Ev}
    (h : noResize evs = line.map fun c => Ev.key (utf8 [c])) {w : World} (hc : 0 ≤ w.cursor)
    (hi : w.input = evs ++ .key [0x0D] :: rest) :
    (∃ s, readLine E w = .ok (s, ⟨utf8 line, .nil⟩) ∧ s.input = rest ∧ 0 ≤ s.cursor) ∨
    (∃ p, readLine E w = .error p ∧
      ((p.kind = .bounds ∧ p.st.narrow E.cfg) ∨ (p.kind = .tabPos ∧ TabBad E p.st))) := by
  have := C04_partial ht.default hc hi (types_of_noResize ht.chars h) ht.fits ht.enter
  rw [flatten_singletons] at this
  exact this

theorem calls_line {D : Device} {P : D.σ → List Char → Prop} (hP : Delivers D P) (cs more : List Char)
    {t : D.σ} (h : P t (cs ++ more)) :
    (D.calls cs.length t).1 = cs.map (fun c => .ok (utf8 [c])) ∧ P (D.calls cs.length t).2 more := by
  induction cs generalizing t with
  | nil => exact ⟨rfl, h⟩
  | cons c cs ih =>
    obtain ⟨t', h1, h2⟩ := hP t c _ h
    have := ih h2
    simp only [List.length_cons, Device.calls, h1, List.map_cons]
    exact ⟨by rw [this.1], this.2⟩

theorem calls_append {D : Device} (n m : Nat) (t : D.σ) :
    (D.calls (n + m) t).1 = (D.calls n t).1 ++ (D.calls m (D.calls n t).2).1 ∧
    (D.calls (n + m) t).2 = (D.calls m (D.calls n t).2).2 := by
  induction n generalizing t with
  | zero => simp [Device.calls]
  | succ n ih =>
    have := ih (D.getKey t).2
    rw [Nat.add_right_comm]
    simp only [Device.calls, List.cons_append]
    exact ⟨by rw [this.1], this.2⟩

theorem calls_length {D : Device} (n : Nat) (t : D.σ) : (D.calls n t).1.length = n := by
  induction n generalizing t with
  | zero => rfl
  | succ n ih => simp [Device.calls, ih]

/-! ## Theorems -/

/-- A call on a Tty that delivers a line and CR reads exactly these and returns the line. -/
theorem C49_call {D : Device} {P : D.σ → List Char → Prop} (hP : Delivers D P) {E : Env} {w : World}
    {line more : List Char} (ht : Typeable E line) (hc : 0 ≤ w.cursor) {t t' : D.σ} {r : RLRes} {c : Int}
    (hp : P t (line ++ '\r' :: more)) (h : Call D E w t r c t') :
    r = ⟨utf8 line, .nil⟩ ∧ 0 ≤ c ∧ P t' more := by
  obtain ⟨n, evs, h1, h2, h3⟩ := h
  by_cases hn : n ≤ line.length
  · exfalso
    -- the session would go on reading
    have e1 : line = line.take n ++ line.drop n := (List.take_append_drop n line).symm
    have hl : (line.take n).length = n := by rw [List.length_take]; omega
    have := (calls_line hP (line.take n) (line.drop n ++ '\r' :: more) (t := t)
      (by rw [← List.append_assoc, ← e1]; exact hp)).1
    rw [hl] at this
    rw [this] at h1
    obtain ⟨s, g1, g2, -⟩ := h3 ((line.drop n).map (fun c => Ev.key (utf8 [c])) ++ [.key [0x0D]])
    have hev : noResize (evs ++ (line.drop n).map (fun c => Ev.key (utf8 [c]))) =
        line.map fun c => Ev.key (utf8 [c]) := by
      rw [noResize_append, h1]
      have : ∀ l : List Char, noResize (l.map fun c => Ev.key (utf8 [c])) =
          l.map fun c => Ev.key (utf8 [c]) := by
        intro l
        induction l with
        | nil => rfl
        | cons c l ih => simp [noResize, ih]
      rw [this]
      conv => rhs; rw [e1, List.map_append]
      rw [List.map_map]
      rfl
    rcases typed_line (w := { w with input := evs ++ ((line.drop n).map (fun c => Ev.key (utf8 [c])) ++
      [.key [0x0D]]) }) (rest := []) ht hev hc (by simp) with ⟨s2, f1, f2, -⟩ | ⟨p, f1, -⟩
    · rw [f1] at g1
      cases g1
      rw [f2] at g2
      simp at g2
    · rw [f1] at g1; cases g1
  · obtain ⟨m, rfl⟩ : ∃ m, n = (line ++ ['\r']).length + m := ⟨n - (line.length + 1), by simp; omega⟩
    obtain ⟨c1, c2⟩ := calls_line hP (line ++ ['\r']) more (t := t) (by simpa using hp)
    obtain ⟨a1, a2⟩ := calls_append (D := D) (line ++ ['\r']).length m t
    have h1 : noResize evs = (line.map fun c => Ev.key (utf8 [c])) ++ .key [0x0D] ::
        (D.calls m (D.calls (line ++ ['\r']).length t).2).1.map answerEv := by
      rw [h1, a1, c1]
      simp [answerEv, utf8_cr, Function.comp_def]
    obtain ⟨e1, e2, rfl, f2, f3⟩ := noResize_split h1
    obtain ⟨s, g1, g2, g3⟩ := h3 []
    rcases typed_line (w := { w with input := (e1 ++ .key [0x0D] :: e2) ++ [] }) (rest := e2) ht f2 hc
      (by simp) with ⟨s2, k1, k2, k3⟩ | ⟨p, k1, -⟩
    · rw [k1] at g1
      injection g1 with g1
      obtain ⟨rfl, rfl⟩ := Prod.mk.inj g1
      rw [k2] at g2
      subst g2
      have hm : m = 0 := by
        have := congrArg List.length f3
        rw [List.length_map, calls_length] at this
        exact this.symm
      subst hm
      refine ⟨rfl, by rw [← g3]; exact k3, ?_⟩
      rw [h2]
      exact c2
    · rw [k1] at g1; cases g1

/-- Consecutive calls return the lines. -/
theorem C49_lines {D : Device} {P : D.σ → List Char → Prop} (hP : Delivers D P)
    {jobs : List (Env × List Char)} (ht : ∀ j ∈ jobs, Typeable j.1 j.2) {c : Int} (hc : 0 ≤ c)
    {t t' : D.σ} {rs : List RLRes} {more : List Char}
    (hp : P t (jobs.flatMap (fun j => j.2 ++ ['\r']) ++ more))
    (h : Calls D (jobs.map (·.1)) c t rs t') :
    rs = jobs.map (fun j => ⟨utf8 j.2, .nil⟩) ∧ P t' more := by
  induction jobs generalizing c t rs with
  | nil => cases h with | nil => exact ⟨rfl, hp⟩
  | cons j jobs ih =>
    cases h with
    | cons h1 h2 =>
      obtain ⟨r1, r2, r3⟩ := C49_call hP (line := j.2) (more := jobs.flatMap (fun j => j.2 ++ ['\r']) ++ more)
        (ht j (by simp)) hc (by simpa using hp) h1
      obtain ⟨g1, g2⟩ := ih (fun x hx => ht x (by simp [hx])) r2 r3 h2
      exact ⟨by rw [r1, g1]; rfl, g2⟩

/-- The call does return, whenever the resizes come. -/
theorem C49_call_partial {D : Device} {P : D.σ → List Char → Prop} (hP : Delivers D P) {E : Env}
    {w : World} {line more : List Char} (ht : Typeable E line) (hc : 0 ≤ w.cursor) {t : D.σ}
    (hp : P t (line ++ '\r' :: more)) {evs : List Ev}
    (he : noResize (evs ++ [.key [0x0D]]) = (D.calls (line.length + 1) t).1.map answerEv) :
    ∀ extra, (∃ s, readLine E { w with input := evs ++ .key [0x0D] :: extra } = .ok (s, ⟨utf8 line, .nil⟩) ∧
        s.input = extra ∧ 0 ≤ s.cursor) ∨
      (∃ p, readLine E { w with input := evs ++ .key [0x0D] :: extra } = .error p ∧
        ((p.kind = .bounds ∧ p.st.narrow E.cfg) ∨ (p.kind = .tabPos ∧ TabBad E p.st))) := by
  intro extra
  refine typed_line (rest := extra) ht ?_ hc rfl
  have := (calls_line hP (line ++ ['\r']) more (t := t) (by simpa using hp)).1
  rw [show (line ++ ['\r']).length = line.length + 1 by simp] at this
  rw [this, noResize_append] at he
  have : noResize [Ev.key [0x0D]] = [Ev.key [0x0D]] := rfl
  rw [this, List.map_append, List.map_append] at he
  have := List.append_inj_left' he rfl
  rw [this, List.map_map]
  rfl

/-- So there is such a call, unless it panics. -/
theorem C49_returns_partial {D : Device} {P : D.σ → List Char → Prop} (hP : Delivers D P) {E : Env}
    (hb : BuiltinKeys E) {w : World} {line more : List Char} (ht : Typeable E line) (hc : 0 ≤ w.cursor)
    {t : D.σ} (hp : P t (line ++ '\r' :: more)) {evs : List Ev}
    (he : noResize (evs ++ [.key [0x0D]]) = (D.calls (line.length + 1) t).1.map answerEv) (k : Bytes) :
    (∃ c t', Call D E w t ⟨utf8 line, .nil⟩ c t' ∧ 0 ≤ c ∧ P t' more) ∨
    (∃ p, readLine E { w with input := evs ++ [.key [0x0D], .key k] } = .error p ∧
      ((p.kind = .bounds ∧ p.st.narrow E.cfg) ∨ (p.kind = .tabPos ∧ TabBad E p.st))) := by
  rcases C49_call_partial hP ht hc hp he [.key k] with ⟨s, h1, h2, h3⟩ | h
  · left
    have hr := C50_reads (w := w) (I := evs ++ [.key [0x0D]]) hb (by simpa using h1) rfl h2
    have hcall : Call D E w t ⟨utf8 line, .nil⟩ s.cursor _ := ⟨line.length + 1, _, he, rfl, hr⟩
    exact ⟨_, _, hcall, h3, (C49_call hP ht hc hp hcall).2.2⟩
  · exact .inr h

/-! ## The Ttys -/

/-- tty10 has `pre` buffered and will read the pieces: valid UTF-8, none of them empty, none of them
with an ESC. -/
def Spec.Pending10 (rest : List (Except Bytes Bytes)) (t : Tty10) (cs : List Char) : Prop :=
  ∃ (pre : List Char) (pieces : List (List Char)), t.buf = utf8 pre ∧
    t.chunks = pieces.map (fun p => .ok (utf8 p)) ++ rest ∧
    (∀ p ∈ pieces, p ≠ []) ∧ pre ++ pieces.flatten = cs ∧ '\x1b' ∉ cs

theorem utf8_cons (c : Char) (cs : List Char) : utf8 (c :: cs) = utf8 [c] ++ utf8 cs := by simp [utf8]

theorem utf8_ne_nil {cs : List Char} (h : cs ≠ []) : utf8 cs ≠ [] := by
  cases cs with
  | nil => exact absurd rfl h
  | cons c cs =>
    intro hx
    have h1 := encodeRune_length_pos c.toNat
    rw [encodeRune_char] at h1
    have h2 := congrArg List.length hx
    simp only [utf8, List.flatMap_cons, List.length_append, List.length_nil] at h2
    omega

theorem tty10Take_char {c : Char} (hc : c ≠ '\x1b') (cs : List Char) (chunks : List (Except Bytes Bytes)) :
    tty10Take (utf8 (c :: cs)) chunks = (.ok (utf8 [c]), ⟨utf8 cs, chunks⟩) := by
  have hd := decode_encode (char_isScalar c) (utf8 cs)
  have hu : utf8 (c :: cs) = encodeRune c.toNat ++ utf8 cs := by rw [encodeRune_char]; simp [utf8]
  rw [← hu] at hd
  have hr : (decodeRune (utf8 (c :: cs))).1 ≠ 0x1B := by
    rw [hd]; intro e; exact hc (Char.toNat_inj.mp e)
  unfold tty10Take
  rw [if_neg hr, hd, hu, List.take_left, List.drop_left, encodeRune_char]
  simp [utf8]

theorem C49_tty10 (rest : List (Except Bytes Bytes)) : Delivers tty10Device (Pending10 rest) := by
  rintro ⟨buf, chunks⟩ c cs ⟨pre, pieces, h1, h2, h3, h4, h5⟩
  have hc : c ≠ '\x1b' := by intro e; subst e; simp at h5
  have hcs : '\x1b' ∉ cs := fun hx => h5 (List.mem_cons_of_mem _ hx)
  change buf = _ at h1
  change chunks = _ at h2
  cases pre with
  | cons d pre =>
    simp only [List.cons_append, List.cons.injEq] at h4
    obtain ⟨rfl, h4⟩ := h4
    refine ⟨⟨utf8 pre, chunks⟩, ?_, pre, pieces, rfl, h2, h3, h4, hcs⟩
    show Tty10.getKey _ = _
    rw [h1, getKey_buf _ _ (utf8_ne_nil (by simp)), tty10Take_char hc]
    rfl
  | nil =>
    cases pieces with
    | nil => simp at h4
    | cons p pieces =>
      cases p with
      | nil => exact absurd rfl (h3 [] (by simp))
      | cons d p =>
        simp only [List.nil_append, List.flatten_cons, List.cons_append, List.cons.injEq] at h4
        obtain ⟨rfl, h4⟩ := h4
        refine ⟨⟨utf8 p, pieces.map (fun p => .ok (utf8 p)) ++ rest⟩, ?_, p, pieces, rfl, rfl,
          fun q hq => h3 q (by simp [hq]), h4, hcs⟩
        show Tty10.getKey _ = _
        rw [h1, h2]
        obtain ⟨b, l, hb⟩ := List.exists_cons_of_ne_nil (utf8_ne_nil (cs := d :: p) (by simp))
        show Tty10.getKey ⟨[], .ok (utf8 (d :: p)) :: _⟩ = _
        rw [hb, getKey_chunk, ← hb, tty10Take_char hc]
        rfl

/-- The events with the runes or UTF-16 units of one character, zeros before and between them
ignored; `more` is what `Buffered()` answers in `GetKeys` after the last. -/
def Spec.Spells (evs : List TtyEv) (c : Char) (more : Bool) : Prop :=
  ∃ init r raw, evs = init ++ [.rune r raw more] ∧ r ≠ 0 ∧ AllRunes init ∧
    codePoints none (evRunes init) = [] ∧ codePoints none (evRunes evs) = [c.toNat]

/-- The Tty of the package has `pre` queued and will read the characters of `post`; the last of them
ends a burst. -/
def Spec.Pending8 (rest : List TtyEv) (t : Tty8) (cs : List Char) : Prop :=
  ∃ (pre : List Char) (post : List (List TtyEv × Char × Bool)),
    t.buf = pre.map (fun c => utf8 [c]) ∧ t.stream = post.flatMap (·.1) ++ rest ∧
    (∀ p ∈ post, Spells p.1 p.2.1 p.2.2) ∧ (∀ p, post.getLast? = some p → p.2.2 = false) ∧
    pre ++ post.map (·.2.1) = cs ∧ '\x1b' ∉ cs

theorem getRawKeyLoop_char {init : List TtyEv} {r : Nat} {raw more : Bool} {c : Char} {p : Option Nat}
    (hp : ∀ x, p = some x → 0 < x) (hr : r ≠ 0) (ha : AllRunes init)
    (h1 : codePoints p (evRunes init) = [])
    (h2 : codePoints p (evRunes (init ++ [.rune r raw more])) = [c.toNat]) (hc : c ≠ '\x1b')
    (rest : List TtyEv) :
    getRawKeyLoop (init ++ [.rune r raw more] ++ rest) [] false (surOf p) = .ok (utf8 [c], more) rest := by
  induction init generalizing p with
  | nil =>
    have hne : c.toNat ≠ 0x1B := fun e => hc (Char.toNat_inj.mp e)
    have hl : 0 < (encodeRune c.toNat).length := encodeRune_length_pos _
    have hu : encodeRune c.toNat = utf8 [c] := by rw [encodeRune_char]; simp [utf8]
    simp only [List.nil_append, List.singleton_append]
    rw [getRawKeyLoop, if_neg hr]
    cases p with
    | some hi =>
      have hh := hp hi rfl
      have e : pair hi r = c.toNat := by
        have : codePoints (some hi) [r] = [c.toNat] := h2
        rw [codePoints_cons_some hr] at this
        exact (List.cons.inj this).1
      have : ¬ (¬ surOf (some hi) > 0 ∧ isSurrogate r = true) := fun hx => hx.1 hh
      rw [if_neg this]
      have h3 : surOf (some hi) > 0 := hh
      simp only [if_pos h3]
      rw [show surOf (some hi) = hi from rfl, utf16Decode_eq, e]
      have : (!((false || c.toNat == 0x1B) && raw) && decide (([] ++ encodeRune c.toNat).length > 0)) = true := by
        simp [hne]; omega
      rw [if_pos this, List.nil_append, hu]
    | none =>
      have h2 : codePoints none [r] = [c.toNat] := h2
      rw [codePoints_cons_none hr] at h2
      have hs : ¬ Surrogate r := by
        intro hs; rw [if_pos hs] at h2; cases h2
      rw [if_neg hs] at h2
      have e : r = c.toNat := (List.cons.inj h2).1
      have : ¬ (¬ surOf none > 0 ∧ isSurrogate r = true) := fun hx => hs (isSurrogate_iff.mp hx.2)
      rw [if_neg this]
      have h3 : ¬ surOf none > 0 := by simp [surOf]
      simp only [if_neg h3]
      rw [e]
      have : (!((false || c.toNat == 0x1B) && raw) && decide (([] ++ encodeRune c.toNat).length > 0)) = true := by
        simp [hne]; omega
      rw [if_pos this, List.nil_append, hu]
  | cons e init ih =>
    cases e with
    | err x => exact absurd (ha _ List.mem_cons_self) (by simp)
    | rune x raw' keys' =>
      have ha' : AllRunes init := fun y hy => ha y (List.mem_cons_of_mem _ hy)
      simp only [List.cons_append]
      rw [getRawKeyLoop]
      have ev : ∀ l, evRunes (.rune x raw' keys' :: l) = x :: evRunes l := fun l => rfl
      rw [List.cons_append] at h2
      rw [ev] at h1 h2
      by_cases h0 : x = 0
      · subst h0
        rw [if_pos rfl]
        rw [codePoints] at h1 h2
        exact ih hp ha' h1 h2
      · rw [if_neg h0]
        cases p with
        | some hi => rw [codePoints_cons_some h0] at h1; cases h1
        | none =>
          rw [codePoints_cons_none h0] at h1 h2
          have hs : Surrogate x := by
            apply Classical.byContradiction
            intro hs
            rw [if_neg hs] at h1; cases h1
          rw [if_pos hs] at h1 h2
          rw [if_pos ⟨by simp [surOf], isSurrogate_iff.mpr hs⟩]
          exact ih (p := some x) (by intro y hy; cases hy; omega) ha' h1 h2

theorem getRawKey_spells {evs : List TtyEv} {c : Char} {more : Bool} (h : Spells evs c more)
    (hc : c ≠ '\x1b') (rest : List TtyEv) : getRawKey (evs ++ rest) = .ok (utf8 [c], more) rest := by
  obtain ⟨init, r, raw, rfl, h1, h2, h3, h4⟩ := h
  exact getRawKeyLoop_char (p := none) (by intro x hx; cases hx) h1 h2 h3 h4 hc rest

theorem spells_length {evs : List TtyEv} {c : Char} {more : Bool} (h : Spells evs c more) :
    0 < evs.length := by
  obtain ⟨init, r, raw, rfl, -⟩ := h
  simp

theorem getKeysLoop_burst {post : List (List TtyEv × Char × Bool)} (hne : post ≠ [])
    (hs : ∀ p ∈ post, Spells p.1 p.2.1 p.2.2) (hl : ∀ p, post.getLast? = some p → p.2.2 = false)
    (he : ∀ p ∈ post, p.2.1 ≠ '\x1b') (rest : List TtyEv) (fuel : Nat) (acc : List Bytes)
    (hf : post.length < fuel) :
    ∃ burst left, post = burst ++ left ∧ burst ≠ [] ∧
      getKeysLoop fuel (post.flatMap (·.1) ++ rest) acc =
        some (.ok (acc ++ burst.map (fun p => utf8 [p.2.1])) (left.flatMap (·.1) ++ rest)) := by
  induction post generalizing fuel acc with
  | nil => exact absurd rfl hne
  | cons p post ih =>
    cases fuel with
    | zero => omega
    | succ fuel =>
      rw [getKeysLoop, List.flatMap_cons, List.append_assoc,
        getRawKey_spells (hs p (by simp)) (he p (by simp))]
      dsimp only
      by_cases hm : p.2.2 = true
      · rw [if_neg (by simp [hm])]
        have hne' : post ≠ [] := by
          intro hx
          subst hx
          rw [hl p rfl] at hm
          cases hm
        obtain ⟨burst, left, g1, g2, g3⟩ := ih hne' (fun q hq => hs q (by simp [hq]))
          (fun q hq => hl q (by rw [List.getLast?_cons_of_ne_nil hne']; exact hq))
          (fun q hq => he q (by simp [hq])) fuel (acc ++ [utf8 [p.2.1]]) (by simp at hf; omega)
        refine ⟨p :: burst, left, by rw [g1]; rfl, by simp, ?_⟩
        rw [g3]
        simp
      · rw [if_pos (by simp [hm])]
        exact ⟨[p], post, rfl, by simp, by simp⟩

theorem C49_tty8 (rest : List TtyEv) : Delivers tty8Device (Pending8 rest) := by
  rintro ⟨buf, stream⟩ c cs ⟨pre, post, h1, h2, h3, h4, h5, h6⟩
  change buf = _ at h1
  change stream = _ at h2
  have hcs : '\x1b' ∉ cs := fun hx => h6 (List.mem_cons_of_mem _ hx)
  cases pre with
  | cons d pre =>
    simp only [List.cons_append, List.cons.injEq] at h5
    obtain ⟨rfl, h5⟩ := h5
    refine ⟨⟨pre.map (fun c => utf8 [c]), stream⟩, ?_, pre, post, rfl, h2, h3, h4, h5, hcs⟩
    subst h1
    rfl
  | nil =>
    simp only [List.nil_append] at h5
    have hne : post ≠ [] := by intro hx; subst hx; simp at h5
    have he : ∀ p ∈ post, p.2.1 ≠ '\x1b' := by
      intro p hp e
      apply h6
      rw [← h5, ← e]
      exact List.mem_map_of_mem hp
    have hlen : ∀ l : List (List TtyEv × Char × Bool), (∀ p ∈ l, Spells p.1 p.2.1 p.2.2) →
        l.length ≤ (l.flatMap (·.1)).length := by
      intro l
      induction l with
      | nil => intro _; simp
      | cons q l ih =>
        intro hl
        have h1 := spells_length (hl q (by simp))
        have h2 := ih (fun x hx => hl x (by simp [hx]))
        simp only [List.flatMap_cons, List.length_cons, List.length_append]
        omega
    obtain ⟨burst, left, g1, g2, g3⟩ := getKeysLoop_burst hne h3 h4 he rest (stream.length + 1) []
      (by have := hlen post h3; rw [h2, List.length_append]; omega)
    obtain ⟨q, burst, rfl⟩ := List.exists_cons_of_ne_nil g2
    rw [← h2] at g3
    subst g1
    simp only [List.cons_append, List.map_cons, List.cons.injEq] at h5
    obtain ⟨rfl, h5⟩ := h5
    refine ⟨⟨burst.map (fun p => utf8 [p.2.1]), left.flatMap (·.1) ++ rest⟩, ?_, burst.map (·.2.1), left,
      by simp, rfl, fun p hp => h3 p (by simp [hp]), ?_, by rw [← h5]; simp, hcs⟩
    · show ((Tty8.getKey ⟨buf, stream⟩).getD _) = _
      rw [h1]
      unfold Tty8.getKey getKeys
      simp only [List.map_nil]
      rw [g3]
      rfl
    · intro p hp
      apply h4
      have : left ≠ [] := by intro hx; subst hx; cases hp
      rw [List.getLast?_append, hp]
      rfl

/-- The autopilot. -/
theorem C49_pilot (rest : List Bytes) :
    Delivers pilotDevice (fun t cs => t = cs.map (fun c => utf8 [c]) ++ rest) := by
  rintro t c cs h
  exact ⟨_, by simp only [pilotDevice, h]; rfl, rfl⟩

/-! ## Cases -/

/-- Text behind an ESC in the same read is not typed: `ESC [ D a b CR` is one key, which is inserted
as it is, so that the next Enter returns all of it. -/
theorem C49_refuted :
    tty10Device.calls 2 (⟨[], [.ok [0x1B, 0x5B, 0x44, 0x61, 0x62, 0x0D], .ok [0x0D]]⟩ : Tty10) =
      ([.ok [0x1B, 0x5B, 0x44, 0x61, 0x62, 0x0D], .ok [0x0D]], (⟨[], []⟩ : Tty10)) ∧
    Example.outcome (readLine (Example.env Example.plain)
      { input := [.key [0x1B, 0x5B, 0x44, 0x61, 0x62, 0x0D], .key [0x0D]] }) =
        .inr ([0x1B, 0x5B, 0x44, 0x61, 0x62, 0x0D], .nil) := by
  refine ⟨by rfl, by decide +kernel⟩

/-- Two lines and a half arrive in three reads. -/
example : Pending10 [] (⟨[], [.ok (utf8 "a".toList), .ok (utf8 "あ\rx".toList), .ok (utf8 "y\rz".toList)]⟩ : Tty10)
    ("aあ\rxy\rz".toList) :=
  ⟨[], ["a".toList, "あ\rx".toList, "y\rz".toList], rfl, rfl, by decide, by decide, by decide⟩

/-- A letter, a zero and a surrogate pair, in one burst. -/
example : Pending8 [] (⟨[], [.rune 0x61 false true, .rune 0 true true, .rune 0xD83D false true,
      .rune 0xDE00 true false]⟩ : Tty8) ['a', '😀'] :=
  ⟨[], [([.rune 0x61 false true], 'a', true),
        ([.rune 0 true true, .rune 0xD83D false true, .rune 0xDE00 true false], '😀', false)], rfl, rfl,
    by
      intro p hp
      simp only [List.mem_cons, List.not_mem_nil, or_false] at hp
      rcases hp with rfl | rfl
      · exact ⟨[], 0x61, false, rfl, by decide, by simp [AllRunes], rfl, by decide⟩
      · exact ⟨[.rune 0 true true, .rune 0xD83D false true], 0xDE00, true, rfl, by decide,
          by simp [AllRunes], by decide, by decide⟩,
    by intro p hp; cases hp; rfl, rfl, by decide⟩

example : Typeable (Example.env Example.plain) ['a'] :=
  ⟨rfl, by intro c hc; simp at hc; subst hc; rfl, (fits_plain rfl _).1, rfl⟩

/-- Two calls on the autopilot, the second with what the first has left. -/
example : Calls pilotDevice [Example.env Example.plain, Example.env Example.plain] 0
    [[0x61], [0x0D], [0x61], [0x0D], [0x62]] [⟨[0x61], .nil⟩, ⟨[0x61], .nil⟩] [[0x62]] :=
  .cons (w := {}) (t1 := [[0x61], [0x0D], [0x62]]) ⟨2, _, rfl, rfl, reads_a⟩
    (.cons (w := { cursor := 1 }) ⟨2, _, rfl, rfl, reads_a'⟩ .nil)

end Readline
