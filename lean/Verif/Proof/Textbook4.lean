import Verif.Proof.Textbook3
/-!
# Pasted texts, keys and searching
-/
namespace Readline
open Spec

variable {E : Env} {L : Logic} {D : Desk} {e : Ed} {p : Page}

/-! ## Pasted texts -/

theorem char_bytes (c : Char) : (c.toNat < 128 ∧ utf8 [c] = [UInt8.ofNat c.toNat]) ∨
    (128 ≤ c.toNat ∧ ∀ x ∈ utf8 [c], 128 ≤ x.toNat) := by
  rcases Nat.lt_or_ge c.toNat 128 with h | h
  · left
    refine ⟨h, ?_⟩
    rw [utf8_one]; unfold encodeRune; rw [if_pos h]
  · right
    refine ⟨h, ?_⟩
    have hs := isScalar_iff.mp (char_isScalar c)
    rw [utf8_one]
    unfold encodeRune
    rw [if_neg (by omega)]
    have big : ∀ n : Nat, 128 ≤ n → n < 256 → 128 ≤ (UInt8.ofNat n).toNat := by
      intro n h1 h2; rw [UInt8.toNat_ofNat']; omega
    split
    · intro x hx
      rcases List.mem_cons.mp hx with rfl | hx
      · exact big _ (by omega) (by omega)
      · rw [List.mem_singleton] at hx; subst hx; exact big _ (by omega) (by omega)
    · rw [if_neg (by simp [char_isScalar])]
      split
      · intro x hx
        simp only [List.mem_cons, List.not_mem_nil, or_false] at hx
        rcases hx with rfl | rfl | rfl <;> exact big _ (by omega) (by omega)
      · intro x hx
        simp only [List.mem_cons, List.not_mem_nil, or_false] at hx
        rcases hx with rfl | rfl | rfl | rfl <;> exact big _ (by omega) (by omega)

/-- An ASCII byte among those of a character is the character. -/
theorem byte_char {c : Char} {b : UInt8} (hb : b.toNat < 128) : b ∈ utf8 [c] ↔ c.toNat = b.toNat := by
  rcases char_bytes c with ⟨h1, h2⟩ | ⟨h1, h2⟩
  · rw [h2, List.mem_singleton]
    constructor
    · rintro rfl; rw [UInt8.toNat_ofNat']; omega
    · intro h; rw [h]; simp
  · constructor
    · intro h; have := h2 b h; omega
    · intro h; omega

theorem ascii_utf8 {c : Char} (h : c.toNat < 128) : utf8 [c] = [UInt8.ofNat c.toNat] := by
  rcases char_bytes c with ⟨_, h2⟩ | ⟨h1, _⟩
  · exact h2
  · omega

theorem pasted_chars (t : List Char) : trimRightCRLFNUL (utf8 t) = utf8 (pasted t) := by
  unfold trimRightCRLFNUL pasted dropEnd
  generalize ht : t.reverse = u
  have ht : t = u.reverse := by rw [← ht, List.reverse_reverse]
  subst ht
  clear ‹_›
  induction u with
  | nil => rfl
  | cons c u ih =>
    rw [List.reverse_cons, utf8_append, List.reverse_append, List.dropWhile_cons]
    by_cases hc : c = '\r' ∨ c = '\n' ∨ c = '\x00'
    · rw [if_pos (by simpa using hc)]
      have : (utf8 [c]).reverse = [0x0D] ∨ (utf8 [c]).reverse = [0x0A] ∨ (utf8 [c]).reverse = [0] := by
        rcases hc with rfl | rfl | rfl
        · left; decide +kernel
        · right; left; decide +kernel
        · right; right; decide +kernel
      have : ((utf8 [c]).reverse ++ (utf8 u.reverse).reverse).dropWhile (fun b => b == 0x0D || b == 0x0A || b == 0) =
          (utf8 u.reverse).reverse.dropWhile (fun b => b == 0x0D || b == 0x0A || b == 0) := by
        rcases this with h | h | h <;> rw [h] <;> rfl
      rw [this]
      exact ih
    · rw [if_neg (by simpa using hc), List.reverse_cons]
      cases hr : (utf8 [c]).reverse with
      | nil => exact absurd (List.reverse_eq_nil_iff.mp hr) (utf8_one_ne c)
      | cons b bs =>
        have hm : b ∈ utf8 [c] := by rw [← List.mem_reverse, hr]; simp
        have hb : ¬ ((b == 0x0D || b == 0x0A || b == 0) = true) := by
          intro h
          rw [Bool.or_eq_true, Bool.or_eq_true, beq_iff_eq, beq_iff_eq, beq_iff_eq] at h
          apply hc
          rcases h with (rfl | rfl) | rfl
          · exact .inl (Char.toNat_inj.mp ((byte_char (by decide)).mp hm))
          · exact .inr (.inl (Char.toNat_inj.mp ((byte_char (by decide)).mp hm)))
          · exact .inr (.inr (Char.toNat_inj.mp ((byte_char (by decide)).mp hm)))
        rw [List.cons_append, List.dropWhile_cons, if_neg hb, List.reverse_cons, List.reverse_append, List.reverse_reverse,
          List.append_assoc, ← List.reverse_cons, ← hr, List.reverse_reverse, utf8_append]

theorem space_chars (t : List Char) : (utf8 t).contains 0x20 = decide (' ' ∈ t) := by
  rw [Bool.eq_iff_iff, List.contains_iff_mem, decide_eq_true_iff]
  induction t with
  | nil => simp [utf8]
  | cons c t ih =>
    rw [utf8_more, List.mem_append, ih, byte_char (by decide), List.mem_cons]
    constructor
    · rintro (h | h)
      · exact .inl (Char.toNat_inj.mp (h.symm : (' ' : Char).toNat = c.toNat))
      · exact .inr h
    · rintro (h | h)
      · exact .inl (by rw [← h]; rfl)
      · exact .inr h

theorem quote_chars (t : List Char) : [(0x22 : UInt8)].isPrefixOf (utf8 t) = decide (t.head? = some '"') := by
  cases t with
  | nil => rfl
  | cons c t =>
    have e : [(0x22 : UInt8)] = utf8 ['"'] := by decide +kernel
    rw [e, prefix_bool, Bool.eq_iff_iff, decide_eq_true_iff]
    simp
    exact eq_comm

theorem double_chars (t : List Char) :
    doubleQuotes (utf8 t) = utf8 (t.flatMap (fun c => if c = '"' then ['"', '"'] else [c])) := by
  induction t with
  | nil => rfl
  | cons c t ih =>
    unfold doubleQuotes at ih ⊢
    rw [utf8_more, List.flatMap_append, ih, List.flatMap_cons, utf8_append]
    congr 1
    by_cases hc : c = '"'
    · subst hc; decide +kernel
    · rw [if_neg hc]
      have : ∀ l : Bytes, (∀ b ∈ l, b ∈ utf8 [c]) → l.flatMap (fun b => if b = 0x22 then [0x22, 0x22] else [b]) = l := by
        intro l hl
        induction l with
        | nil => rfl
        | cons b l ihl =>
          have hb : b ≠ 0x22 := by
            rintro rfl
            exact hc (Char.toNat_inj.mp ((byte_char (b := 0x22) (by decide)).mp (hl 0x22 (by simp))))
          rw [List.flatMap_cons, if_neg hb, ihl (fun x hx => hl x (by simp [hx]))]
          rfl
      exact this _ (fun b h => h)

theorem requote_plain {c : Char} (h : c ≠ '\r') (t : List Char) : requote (c :: t) = c :: requote t := by
  rw [requote]
  rintro t' rfl
  intro _
  exact h rfl

theorem replaceAll_skip (old new l t : Bytes) (ho : old ≠ []) (hl : ∀ b ∈ l, some b ≠ old.head?) :
    replaceAll old new (l ++ t) = l ++ replaceAll old new t := by
  induction l with
  | nil => rfl
  | cons b l ih =>
    rw [List.cons_append, replaceAll_cons _ _ ho, if_neg, ih (fun x hx => hl x (by simp [hx]))]
    · rfl
    · intro hp
      cases old with
      | nil => exact ho rfl
      | cons o os =>
        have := (List.isPrefixOf_iff_prefix.mp hp)
        rw [List.cons_prefix_cons] at this
        exact hl b (by simp) (by rw [this.1]; rfl)

theorem requote_chars (t : List Char) : replaceAll [0x0D, 0x0A] [0x22, 0x0D, 0x0A, 0x22] (utf8 t) = utf8 (requote t) := by
  induction t using requote.induct with
  | case1 t ih =>
    have e : utf8 ('\r' :: '\n' :: t) = 0x0D :: 0x0A :: utf8 t := by
      rw [utf8_more, utf8_more '\n', ← List.append_assoc]
      have : utf8 ['\r'] ++ utf8 ['\n'] = [0x0D, 0x0A] := by decide +kernel
      rw [this]; rfl
    rw [e, replaceAll_cons _ _ (by simp), if_pos (by simp [List.isPrefixOf])]
    have : ((0x0D : UInt8) :: 0x0A :: utf8 t).drop ([0x0D, 0x0A] : Bytes).length = utf8 t := rfl
    rw [this, ih, requote, utf8_append]
    congr 1
  | case2 c t hc ih =>
    rw [requote.eq_2 _ _ hc, utf8_more, utf8_more c (requote t), ← ih]
    by_cases h : c = '\r'
    · subst h
      have e : utf8 ['\r'] = [0x0D] := by decide +kernel
      rw [e, List.singleton_append, List.singleton_append, replaceAll_cons _ _ (by simp), if_neg]
      intro hp
      rw [List.isPrefixOf_iff_prefix, List.cons_prefix_cons] at hp
      have hp := hp.2
      cases t with
      | nil => simp [utf8] at hp
      | cons d t =>
        have e2 : [(0x0A : UInt8)] = utf8 ['\n'] := by decide +kernel
        rw [e2, utf8_prefix, List.cons_prefix_cons] at hp
        exact hc t rfl (by rw [← hp.1])
    · apply replaceAll_skip _ _ _ _ (by simp)
      intro b hb hx
      have hx : b = 0x0D := by simpa using hx
      subst hx
      exact h (Char.toNat_inj.mp ((byte_char (by decide)).mp hb))
  | case3 => rfl

theorem quoted_chars (t : List Char) : quoteText (utf8 t) = utf8 (quotedText t) := by
  unfold quoteText quotedText
  rw [space_chars, quote_chars]
  by_cases h : ' ' ∈ t ∧ t.head? ≠ some '"'
  · rw [if_pos h, if_pos (by simp [h.1, h.2])]
    dsimp only
    rw [replaceAll_quotes, double_chars]
    have e : [(0x22 : UInt8)] = utf8 ['"'] := by decide +kernel
    rw [e, ← utf8_append, ← utf8_append]
    exact requote_chars _
  · rw [if_neg h, if_neg (by simpa using h)]

/-! ## Keys -/

/-- The keys that are to come, resizes left aside. -/
structure Upcoming (evs : List Ev) (ks : List (List Char)) : Prop where
  keys : keysIn evs = ks.map utf8
  quiet : NoErr evs
  full : ∀ k ∈ ks, k ≠ []

theorem popKey_next {evs : List Ev} (hn : NoErr evs) :
    (keysIn evs = [] → popKey evs = none) ∧
    (∀ k ks, keysIn evs = k :: ks → ∃ r, popKey evs = some (.key k, r) ∧ keysIn r = ks ∧ NoErr r) := by
  induction evs with
  | nil => exact ⟨fun _ => rfl, fun k ks h => by cases h⟩
  | cons x evs ih =>
    have hn' : NoErr evs := fun y hy => hn y (by simp [hy])
    obtain ⟨i1, i2⟩ := ih hn'
    cases x with
    | key q =>
      refine ⟨fun h => by simp [keysIn] at h, fun k ks h => ?_⟩
      rw [keysIn] at h
      cases h
      exact ⟨evs, by simp [popKey], rfl, hn'⟩
    | resize v =>
      refine ⟨fun h => ?_, fun k ks h => ?_⟩
      · rw [keysIn] at h
        rw [popKey, i1 h]
      · rw [keysIn] at h
        obtain ⟨r, h1, h2, h3⟩ := i2 k ks h
        refine ⟨.resize v :: r, by rw [popKey, h1], by rw [keysIn]; exact h2, ?_⟩
        intro y hy
        rcases List.mem_cons.mp hy with hy | hy
        · cases hy
        · exact h3 y hy
    | err y => exact absurd (by simp) (hn y)

theorem getKey_none (hr : Upcoming e.input []) : Ed.getKey e = (none, e) := by
  unfold Ed.getKey
  rw [(popKey_next hr.quiet).1 hr.keys]

theorem getKey_some {k : List Char} {ks : List (List Char)} (hr : Upcoming e.input (k :: ks)) :
    ∃ r, Ed.getKey e = (some (utf8 k), { e with input := r }) ∧ Upcoming r ks := by
  obtain ⟨r, h1, h2, h3⟩ := (popKey_next hr.quiet).2 _ _ hr.keys
  refine ⟨r, ?_, h2, h3, fun x hx => hr.full x (by simp [hx])⟩
  unfold Ed.getKey
  rw [h1]

/-! ## Searching -/

/-- The search of the editor and the search of the textbook. -/
structure Quested (C : Cfg) (h : Hunt) (q : Quest) : Prop where
  text : h.text = q.sought.map Char.toNat
  shown : h.shown = utf8 q.found
  pos : h.pos = q.pos
  alone : AloneIn C q.found

theorem hist_chars (hs : Suits D E.logic) (i : Nat) : E.history.getD i [] = utf8 (D.history.getD i []) := by
  have : E.history = D.history.map utf8 := hs.history
  rw [this, List.getD_eq_getElem?_getD, List.getElem?_map, List.getD_eq_getElem?_getD]
  cases D.history[i]? <;> simp [utf8]

theorem hist_len (hs : Suits D E.logic) : E.history.length = D.history.length := by
  have : E.history = D.history.map utf8 := hs.history
  rw [this, List.length_map]

theorem hist_alone (hs : Suits D E.logic) (i : Nat) : AloneIn E.cfg (D.history.getD i []) := by
  rw [List.getD_eq_getElem?_getD]
  cases hx : D.history[i]? with
  | none => intro c hc; cases hc
  | some y => exact hs.alone y (List.mem_of_getElem? hx)

theorem Quested.first {h : Hunt} {q : Quest} (hs : Suits D E.logic) (hq : Quested E.cfg h q) (is : List Nat) {f : Bytes → Bool}
    {g : List Char → Bool} (hf : ∀ t, f (utf8 t) = g t) {h0 : Hunt} {q0 : Quest} (h0q : Quested E.cfg h0 q0) :
    Quested E.cfg ((h.first E is f).getD h0) ((q.first D is g).getD q0) := by
  unfold Hunt.first Quest.first
  have : (fun i => f (E.history.getD i [])) = fun i => g (D.history.getD i []) := by
    funext i; rw [hist_chars hs, hf]
  rw [this]
  cases is.find? (fun i => g (D.history.getD i [])) with
  | none => exact h0q
  | some i => exact ⟨hq.text, hist_chars hs i, rfl, hist_alone hs i⟩

theorem Quested.newest {h : Hunt} {q : Quest} (hs : Suits D E.logic) (hq : Quested E.cfg h q) : Quested E.cfg (h.newest E) (q.newest D) := by
  unfold Hunt.newest Quest.newest
  rw [hist_len hs]
  refine hq.first hs _ (fun t => ?_) ⟨hq.text, by simp [utf8], hq.pos, fun c hc => by cases hc⟩
  rw [hq.text, ← utf8_eq_encodeRunes]
  exact hs.has q.sought t

theorem Quested.other {h : Hunt} {q : Quest} (hs : Suits D E.logic) (hq : Quested E.cfg h q) (is : List Nat) :
    Quested E.cfg (h.other E is) (q.another D is) := by
  unfold Hunt.other Quest.another
  refine hq.first hs _ (fun t => ?_) hq
  rw [hq.text, ← utf8_eq_encodeRunes, hq.shown]
  congr 1
  · exact hs.has q.sought t
  · rw [Bool.eq_iff_iff, decide_eq_true_iff, decide_eq_true_iff]
    exact not_congr ⟨fun h => utf8_injective h, fun h => by rw [h]⟩

theorem key_is {k : List Char} {s : String} {c : List Char} (hb : b s = utf8 c) : utf8 k = b s ↔ k = c := by
  rw [hb]; exact ⟨fun h => utf8_injective h, fun h => by rw [h]⟩

/-- A key inside a search. -/
theorem Quested.press {h : Hunt} {q : Quest} (hs : Suits D E.logic) (hq : Quested E.cfg h q) {k : List Char} (hk : k ≠ []) :
    (∀ q', q.press D k = some q' → (¬ takes (utf8 k) ∧ ¬ givesUp (utf8 k)) ∧ Quested E.cfg (h.key E (utf8 k)) q') ∧
    (q.press D k = none → (takes (utf8 k) ∧ k = ['\r']) ∨ (givesUp (utf8 k) ∧ k ≠ ['\r'])) := by
  have k8 := key_is (k := k) (s := "\x08") (c := ['\x08']) (by decide +kernel)
  have k7 := key_is (k := k) (s := "\x7f") (c := ['\x7f']) (by decide +kernel)
  have kd := key_is (k := k) (s := "\x0d") (c := ['\r']) (by decide +kernel)
  have k3 := key_is (k := k) (s := "\x03") (c := ['\x03']) (by decide +kernel)
  have kg := key_is (k := k) (s := "\x07") (c := ['\x07']) (by decide +kernel)
  have ke := key_is (k := k) (s := "\x1b") (c := ['\x1b']) (by decide +kernel)
  have kr := key_is (k := k) (s := "\x12") (c := ['\x12']) (by decide +kernel)
  have kn := key_is (k := k) (s := "\x13") (c := ['\x13']) (by decide +kernel)
  have hdrop : (q.sought.map Char.toNat).dropLast = q.sought.dropLast.map Char.toNat := by rw [List.map_dropLast]
  unfold takes givesUp Hunt.key Quest.press
  simp only [k8, k7, kd, k3, kg, ke, kr, kn]
  by_cases c1 : k = ['\x08'] ∨ k = ['\x7f']
  · rw [if_pos c1, if_pos c1]
    refine ⟨fun q' hq' => ?_, fun h => by cases h⟩
    cases hq'
    refine ⟨by rcases c1 with rfl | rfl <;> decide, ?_⟩
    exact Quested.newest hs ⟨by show h.text.dropLast = _; rw [hq.text, hdrop], hq.shown, hq.pos, hq.alone⟩
  rw [if_neg c1, if_neg c1]
  by_cases c2 : k = ['\r'] ∨ k = ['\x03'] ∨ k = ['\x07'] ∨ k = ['\x1b']
  · rw [if_pos c2]
    refine ⟨fun q' h => by (cases h), fun _ => ?_⟩
    rcases c2 with rfl | rfl | rfl | rfl <;> decide
  rw [if_neg c2]
  have hin : ¬ k = ['\r'] ∧ ¬ (k = ['\x03'] ∨ k = ['\x07'] ∨ k = ['\x1b']) := not_or.mp c2
  by_cases c3 : k = ['\x12']
  · rw [if_pos c3, if_pos c3]
    refine ⟨fun q' hq' => ?_, fun h => by cases h⟩
    cases hq'
    refine ⟨hin, ?_⟩
    have : olderThan E.history.length h.pos = (List.range q.pos).reverse ++ (List.range' (q.pos + 1) (D.history.length - 1 - q.pos)).reverse := by
      unfold olderThan; rw [hq.pos, hist_len hs]
    rw [this]
    exact hq.other hs _
  rw [if_neg c3, if_neg c3]
  by_cases c4 : k = ['\x13']
  · rw [if_pos c4, if_pos c4]
    refine ⟨fun q' hq' => ?_, fun h => by cases h⟩
    cases hq'
    refine ⟨hin, ?_⟩
    have : newerThan E.history.length h.pos = List.range' (q.pos + 1) (D.history.length - 1 - q.pos) := by
      unfold newerThan; rw [hq.pos, hist_len hs]
    rw [this]
    exact hq.other hs _
  rw [if_neg c4, if_neg c4]
  cases k with
  | nil => exact absurd rfl hk
  | cons c k =>
    have hd : (decodeRune (utf8 (c :: k))).1 = c.toNat := by rw [utf8_more, decode_front]
    rw [hd]
    dsimp only
    by_cases c5 : c.toNat < 0x20 ∨ (0x7F ≤ c.toNat ∧ c.toNat ≤ 0x9F)
    · rw [if_pos c5, if_pos (by unfold isCtl; omega)]
      refine ⟨fun q' hq' => ?_, fun h => by cases h⟩
      cases hq'
      exact ⟨hin, hq⟩
    · rw [if_neg c5, if_neg (by unfold isCtl; omega)]
      refine ⟨fun q' hq' => ?_, fun h => by cases h⟩
      cases hq'
      exact ⟨hin, Quested.newest hs ⟨by show h.text ++ [c.toNat] = _; rw [hq.text, List.map_append]; rfl, hq.shown, hq.pos, hq.alone⟩⟩

/-- The whole search. -/
theorem search_run (hs : Suits D E.logic) {ks : List (List Char)} {q : Quest} {h : Hunt} {it : ISt} {n : Nat} (hn : ks.length < n)
    (hd : Portrays E.logic e p) (hr : Upcoming e.input ks) (hh : HRel E it h) (hq : Quested E.cfg h q) :
    (∀ t ks', Quest.run D q ks = (some t, ks') →
      Portrays E.logic (Ed.searchLoop E.logic n it e) (p.killAll.paste t) ∧ Upcoming (Ed.searchLoop E.logic n it e).input ks') ∧
    (∀ ks', Quest.run D q ks = (none, ks') →
      Portrays E.logic (Ed.searchLoop E.logic n it e) p ∧ Upcoming (Ed.searchLoop E.logic n it e).input ks') := by
  induction ks generalizing q h it e n with
  | nil =>
    obtain ⟨n, rfl⟩ : ∃ m, n = m + 1 := ⟨n - 1, by omega⟩
    rw [Ed.searchLoop, getKey_none hr, Quest.run]
    refine ⟨fun t ks' hx => by (cases hx), fun ks' hx => ?_⟩
    cases hx
    exact ⟨hd, hr⟩
  | cons k ks ih =>
    obtain ⟨n, rfl⟩ : ∃ m, n = m + 1 := ⟨n - 1, by omega⟩
    obtain ⟨r, hg, hr'⟩ := getKey_some hr
    have hk : k ≠ [] := hr.full k (by simp)
    obtain ⟨p1, p2⟩ := hq.press hs hk
    rw [Quest.run]
    cases hp : q.press D k with
    | some q' =>
      obtain ⟨hin, hq'⟩ := p1 q' hp
      obtain ⟨it', hh', he⟩ := searchLoop_key hh hin hg n
      rw [he]
      exact ih (by rw [List.length_cons] at hn; omega) (hd.input r) hr' hh' hq'
    | none =>
      dsimp only
      have cr : b "\x0d" = [0x0D] := by decide +kernel
      have c3 : b "\x03" = [0x03] := by decide +kernel
      have c7 : b "\x07" = [0x07] := by decide +kernel
      have c1b : b "\x1b" = [0x1B] := by decide +kernel
      rw [Ed.searchLoop, hg]
      dsimp only
      rcases p2 hp with ⟨h1, h2⟩ | ⟨h1, h2⟩
      · unfold takes at h1
        rw [cr] at h1
        rw [if_pos h2, h1, if_neg (by decide), if_pos rfl]
        refine ⟨fun t ks' hx => ?_, fun ks' hx => by (cases hx)⟩
        obtain ⟨rfl, rfl⟩ : q.found = t ∧ ks = ks' := by cases hx; exact ⟨rfl, rfl⟩
        have hf : it.found = utf8 q.found := hh.shown.trans hq.shown
        rw [hf]
        have h3 := (hd.input r).killAll.replace hq.alone
        have h4 : (Ed.replace E.logic (Ed.killWhole { e with input := r }) (Ed.killWhole { e with input := r }).cursor (utf8 q.found)).input = r := by
          unfold Ed.replace
          dsimp only
          have hpi : ∀ x : Ed, (Ed.predict E.logic x).input = x.input := by
            intro x; unfold Ed.predict; split
            · rfl
            · split <;> rfl
          rw [hpi]
          show (Ed.delete _ _ _).input = r
          unfold Ed.delete
          split <;> rfl
        refine ⟨h3, ?_⟩
        exact h4.symm ▸ hr'
      · unfold givesUp at h1
        rw [c3, c7, c1b] at h1
        rw [if_neg h2, if_neg (by rcases h1 with h | h | h <;> rw [h] <;> decide),
          if_neg (by rcases h1 with h | h | h <;> rw [h] <;> decide), if_pos h1]
        refine ⟨fun t ks' hx => by (cases hx), fun ks' hx => ?_⟩
        cases hx
        exact ⟨hd.input r, hr'⟩

end Readline
