import Verif.Model.GetKey
import Verif.Proof.Utf8
/-!
# C23: tty10 delivers every byte exactly once

`C23_bytes`: no byte is lost, duplicated or reordered.  `C23_nonempty`: no empty key.
`C23_chunk`: how one chunk of valid text is cut into keys.  The claim "each key is one
character" fails when a character is split between two reads (`C23_counterexample`).
-/
namespace Readline
open Spec

/-- The answers of `n` calls of `GetKey` and the terminal afterwards. -/
def Tty10.run : Nat → Tty10 → List (Except Bytes Bytes) × Tty10
  | 0, t => ([], t)
  | n + 1, t =>
    let (a, t) := t.getKey
    let (as, t) := Tty10.run n t
    (a :: as, t)

/-- The bytes delivered: successful reads (or keys) in order; errors carry none. -/
def Spec.okBytes (l : List (Except Bytes Bytes)) : Bytes :=
  l.flatMap (fun e => match e with | .ok b => b | .error _ => [])

/-- `GetKey` when the byte buffer is `buf` (tty10/main.go:71-79). -/
def tty10Take (buf : Bytes) (chunks : List (Except Bytes Bytes)) : Except Bytes Bytes × Tty10 :=
  if (decodeRune buf).1 = 0x1B then (.ok buf, { buf := [], chunks := chunks })
  else (.ok (buf.take (decodeRune buf).2), { buf := buf.drop (decodeRune buf).2, chunks := chunks })

theorem getKey_buf (buf : Bytes) (chunks : List (Except Bytes Bytes)) (h : buf ≠ []) :
    Tty10.getKey ⟨buf, chunks⟩ = tty10Take buf chunks := by
  unfold Tty10.getKey tty10Take
  simp only
  rw [if_pos (List.length_pos_iff.mpr h)]

theorem getKey_chunk (b : UInt8) (c : Bytes) (rest : List (Except Bytes Bytes)) :
    Tty10.getKey ⟨[], .ok (b :: c) :: rest⟩ = tty10Take (b :: c) rest := by
  unfold Tty10.getKey tty10Take
  simp

theorem getKey_cases (t : Tty10) :
    (t.buf ≠ [] ∧ t.getKey = tty10Take t.buf t.chunks) ∨
    (t.buf = [] ∧ t.chunks = [] ∧ t.getKey = (.error [], ⟨[], []⟩)) ∨
    (t.buf = [] ∧ ∃ e rest, t.chunks = .error e :: rest ∧ t.getKey = (.error e, ⟨[], rest⟩)) ∨
    (t.buf = [] ∧ ∃ rest, t.chunks = .ok [] :: rest ∧ t.getKey = (.ok [], ⟨[], rest⟩)) ∨
    (t.buf = [] ∧ ∃ b c rest, t.chunks = .ok (b :: c) :: rest ∧ t.getKey = tty10Take (b :: c) rest) := by
  obtain ⟨buf, chunks⟩ := t
  by_cases h : buf = []
  · subst h
    right
    match chunks with
    | [] => left; exact ⟨rfl, rfl, by simp [Tty10.getKey]⟩
    | .error e :: rest => right; left; exact ⟨rfl, e, rest, rfl, by simp [Tty10.getKey]⟩
    | .ok [] :: rest => right; right; left; exact ⟨rfl, rest, rfl, by simp [Tty10.getKey]⟩
    | .ok (b :: c) :: rest => right; right; right; exact ⟨rfl, b, c, rest, rfl, getKey_chunk b c rest⟩
  · left; exact ⟨h, getKey_buf buf chunks h⟩

theorem tty10Take_bytes (buf : Bytes) (chunks : List (Except Bytes Bytes)) :
    ∃ k, (tty10Take buf chunks).1 = .ok k ∧ k ++ (tty10Take buf chunks).2.buf = buf ∧
      (tty10Take buf chunks).2.chunks = chunks := by
  unfold tty10Take
  split
  · exact ⟨buf, rfl, by simp, rfl⟩
  · exact ⟨_, rfl, by simp, rfl⟩

theorem getKey_bytes (t : Tty10) :
    ∃ cs, t.chunks = cs ++ t.getKey.2.chunks ∧
      okBytes [t.getKey.1] ++ t.getKey.2.buf = t.buf ++ okBytes cs := by
  rcases getKey_cases t with ⟨_, h⟩ | ⟨h1, h2, h⟩ | ⟨h1, e, rest, h2, h⟩ | ⟨h1, rest, h2, h⟩ |
    ⟨h1, b, c, rest, h2, h⟩
  · obtain ⟨k, hk, hb, hc⟩ := tty10Take_bytes t.buf t.chunks
    exact ⟨[], by rw [h, hc]; rfl, by rw [h, hk]; simpa [okBytes] using hb⟩
  · exact ⟨[], by rw [h, h2]; rfl, by rw [h, h1]; rfl⟩
  · exact ⟨[.error e], by rw [h, h2]; rfl, by rw [h, h1]; rfl⟩
  · exact ⟨[.ok []], by rw [h, h2]; rfl, by rw [h, h1]; rfl⟩
  · obtain ⟨k, hk, hb, hc⟩ := tty10Take_bytes (b :: c) rest
    exact ⟨[.ok (b :: c)], by rw [h, h2, hc]; rfl, by rw [h, h1, hk]; simpa [okBytes] using hb⟩

theorem okBytes_append (a b : List (Except Bytes Bytes)) : okBytes (a ++ b) = okBytes a ++ okBytes b := by
  simp [okBytes]

/-- After any number of `GetKey` calls: the bytes of the keys, followed by what is still
buffered, are the bytes of the chunks read so far (after what was buffered before). -/
theorem C23_bytes (n : Nat) (t : Tty10) :
    ∃ read, t.chunks = read ++ (Tty10.run n t).2.chunks ∧
      okBytes (Tty10.run n t).1 ++ (Tty10.run n t).2.buf = t.buf ++ okBytes read := by
  induction n generalizing t with
  | zero => exact ⟨[], rfl, by simp [Tty10.run, okBytes]⟩
  | succ n ih =>
    obtain ⟨c1, h1, h2⟩ := getKey_bytes t
    obtain ⟨c2, h3, h4⟩ := ih t.getKey.2
    refine ⟨c1 ++ c2, ?_, ?_⟩
    · simp only [Tty10.run]
      rw [h1, List.append_assoc, ← h3]
    · simp only [Tty10.run]
      have : ∀ a l, okBytes (a :: l) = okBytes [a] ++ okBytes l := by intro a l; simp [okBytes]
      rw [this, List.append_assoc, h4, ← List.append_assoc, h2, okBytes_append, List.append_assoc]

theorem tty10Take_ne (buf : Bytes) (chunks : List (Except Bytes Bytes)) (h : buf ≠ []) :
    (tty10Take buf chunks).1 ≠ .ok [] := by
  obtain ⟨b, t, rfl⟩ := List.exists_cons_of_ne_nil h
  unfold tty10Take
  split
  · simp
  · have := decodeRune_size_pos b t
    obtain ⟨m, hm⟩ : ∃ m, (decodeRune (b :: t)).2 = m + 1 := ⟨(decodeRune (b :: t)).2 - 1, by omega⟩
    rw [hm]
    simp

/-- No key is empty as long as no read delivers zero bytes. -/
theorem C23_nonempty (n : Nat) (t : Tty10) (h : (.ok [] : Except Bytes Bytes) ∉ t.chunks) :
    (.ok [] : Except Bytes Bytes) ∉ (Tty10.run n t).1 := by
  induction n generalizing t with
  | zero => simp [Tty10.run]
  | succ n ih =>
    obtain ⟨c1, h1, _⟩ := getKey_bytes t
    have hrest : (.ok [] : Except Bytes Bytes) ∉ t.getKey.2.chunks := by
      intro hm; apply h; rw [h1]; exact List.mem_append_right _ hm
    simp only [Tty10.run]
    intro hm
    rcases List.mem_cons.mp hm with hm | hm
    · rcases getKey_cases t with ⟨h1, h2⟩ | ⟨_, _, h2⟩ | ⟨_, e, rest, _, h2⟩ | ⟨_, rest, h2, _⟩ |
        ⟨_, b, c, rest, _, h2⟩
      · rw [h2] at hm; exact tty10Take_ne _ _ h1 hm.symm
      · rw [h2] at hm; cases hm
      · rw [h2] at hm; cases hm
      · rw [h2] at h; simp at h
      · rw [h2] at hm; exact tty10Take_ne _ _ (by simp) hm.symm
    · exact ih _ hrest hm

/-- Cutting a buffered text: characters one by one up to an ESC, then the rest as one key. -/
theorem run_take (pre : List Char) (tail : Bytes) (chunks : List (Except Bytes Bytes))
    (h1 : '\x1b' ∉ pre) (h2 : tail = [] ∨ tail.head? = some 0x1B) :
    Tty10.run (pre.length + (if tail = [] then 0 else 1)) ⟨utf8 pre ++ tail, chunks⟩ =
      (pre.map (fun c => .ok (utf8 [c])) ++ (if tail = [] then [] else [.ok tail]), ⟨[], chunks⟩) := by
  induction pre with
  | nil =>
    rcases h2 with rfl | h2
    · rfl
    · obtain ⟨b, t, rfl⟩ : ∃ b t, tail = b :: t := by
        cases tail with
        | nil => simp at h2
        | cons b t => exact ⟨b, t, rfl⟩
      simp at h2
      subst h2
      simp only [List.length_nil, reduceCtorEq, if_false, utf8, List.flatMap_nil, List.nil_append, Nat.zero_add,
        List.map_nil, Tty10.run]
      rw [getKey_buf _ _ (by simp)]
      have : (decodeRune (0x1B :: t)).1 = 0x1B := by simp [decodeRune]
      unfold tty10Take
      rw [if_pos this]
  | cons c pre ih =>
    have hc : c ≠ '\x1b' := by intro h; subst h; simp at h1
    have h1' : '\x1b' ∉ pre := by intro h; exact h1 (List.mem_cons_of_mem _ h)
    have hu : utf8 (c :: pre) ++ tail = encodeRune c.toNat ++ (utf8 pre ++ tail) := by
      rw [encodeRune_char]; simp [utf8]
    have hne : utf8 (c :: pre) ++ tail ≠ [] := by
      rw [hu]; simp [encodeRune_ne_nil]
    have hd := decode_encode (char_isScalar c) (utf8 pre ++ tail)
    rw [← hu] at hd
    have hr : (decodeRune (utf8 (c :: pre) ++ tail)).1 ≠ 0x1B := by
      rw [hd]; intro e
      exact hc (Char.toNat_inj.mp e)
    rw [List.length_cons, Nat.add_right_comm, Tty10.run, getKey_buf _ _ hne]
    unfold tty10Take
    rw [if_neg hr, hd, hu, List.take_left, List.drop_left]
    dsimp only
    rw [ih h1']
    simp [encodeRune_char, utf8]

/-- One chunk `utf8 pre ++ tail`, where `pre` has no ESC and `tail` is empty or starts with
ESC: the keys are the characters of `pre` one by one and then `tail` as one key; afterwards
the next chunk is due. -/
theorem C23_chunk (pre : List Char) (tail : Bytes) (rest : List (Except Bytes Bytes))
    (h0 : utf8 pre ++ tail ≠ []) (h1 : '\x1b' ∉ pre) (h2 : tail = [] ∨ tail.head? = some 0x1B) :
    Tty10.run (pre.length + (if tail = [] then 0 else 1)) ⟨[], .ok (utf8 pre ++ tail) :: rest⟩ =
      (pre.map (fun c => .ok (utf8 [c])) ++ (if tail = [] then [] else [.ok tail]), ⟨[], rest⟩) := by
  rw [← run_take pre tail rest h1 h2]
  obtain ⟨b, t, hbt⟩ := List.exists_cons_of_ne_nil h0
  rw [hbt]
  have hn : ∃ m, pre.length + (if tail = [] then 0 else 1) = m + 1 := by
    by_cases ht : tail = []
    · subst ht
      cases pre with
      | nil => simp [utf8] at h0
      | cons c l => exact ⟨l.length, by simp⟩
    · exact ⟨pre.length, by simp [ht]⟩
  obtain ⟨m, hm⟩ := hn
  rw [hm, Tty10.run, Tty10.run, getKey_chunk, getKey_buf _ _ (by simp)]

/-- Non-vacuity: `aあ` followed by a cursor key in one chunk, then another chunk. -/
example : (Tty10.run 4 ⟨[], [.ok (utf8 ['a', 'あ'] ++ [0x1B, 0x5B, 0x41]), .ok [0x62]]⟩).1
    = [.ok [0x61], .ok (utf8 ['あ']), .ok [0x1B, 0x5B, 0x41], .ok [0x62]] := by
  rfl
example := C23_chunk ['a', 'あ'] [0x1B, 0x5B, 0x41] [.ok [0x62]] (by simp) (by decide) (by simp)

/-- A character split between two reads arrives as three one-byte keys, none of which is a
character. -/
theorem C23_counterexample :
    (Tty10.run 3 ⟨[], [.ok [0xE3, 0x81], .ok [0x82]]⟩).1 = [.ok [0xE3], .ok [0x81], .ok [0x82]] ∧
    utf8 ['あ'] = [0xE3, 0x81, 0x82] := by
  constructor
  · rfl
  · decide

end Readline
