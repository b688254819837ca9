import Verif.Spec.Prefix
import Verif.Spec.Example
import Verif.Proof.Utf8
/-!
# C34: the common prefix of the candidates

`commonPrefix` (completion/main.go:18-59) cuts as many bytes off the shortest candidate as the
common runes take in the spelling of the *first* candidate.  When two spellings of a letter take
different numbers of bytes (`ı` and `i`, `ſ` and `s`), or a candidate is not UTF-8, this panics
or cuts too much: the statement is false.  `C34_partial` proves it for candidates in UTF-8 whose
common letters take equally many bytes in either case.
-/
namespace Readline
open Spec

theorem commonRunes_prefix (U : Uni) (c f : List Rune) : commonRunes U c f <+: c := by
  induction c generalizing f with
  | nil => cases f <;> exact List.prefix_refl _
  | cons x c ih =>
    cases f with
    | nil => exact List.nil_prefix
    | cons y f =>
      rw [commonRunes]
      split
      · exact List.cons_prefix_cons.mpr ⟨rfl, ih f⟩
      · exact List.nil_prefix

theorem commonRunes_fold (U : Uni) (c f : List Rune) :
    (commonRunes U c f).map U.upper <+: f.map U.upper := by
  induction c generalizing f with
  | nil => cases f <;> exact List.nil_prefix
  | cons x c ih =>
    cases f with
    | nil => exact List.nil_prefix
    | cons y f =>
      rw [commonRunes]
      split
      · rename_i h
        exact List.cons_prefix_cons.mpr ⟨h, ih f⟩
      · exact List.nil_prefix

theorem commonRunes_max (U : Uni) (q : List Rune) (c f : List Rune) (h1 : q <+: c.map U.upper)
    (h2 : q <+: f.map U.upper) : q <+: (commonRunes U c f).map U.upper := by
  induction q generalizing c f with
  | nil => exact List.nil_prefix
  | cons z q ih =>
    cases c with
    | nil => simp at h1
    | cons x c =>
      cases f with
      | nil => simp at h2
      | cons y f =>
        simp only [List.map_cons, List.cons_prefix_cons] at h1 h2
        rw [commonRunes, if_pos (h1.1.symm.trans h2.1)]
        exact List.cons_prefix_cons.mpr ⟨h1.1, ih c f h1.2 h2.2⟩

/-- What the loop of `commonPrefix` has found when it ends: `pre` are the candidates already
seen, `c` the common runes. -/
structure Found (U : Uni) (l : List Bytes) (c : List Rune) (m : Nat) : Prop where
  scalar : ∀ r ∈ c, isScalar r = true
  first : ∃ s ∈ l, c <+: runesOf s
  fold : ∀ s ∈ l, c.map U.upper <+: (runesOf s).map U.upper
  max : ∀ q, (∀ s ∈ l, q <+: (runesOf s).map U.upper) → q <+: c.map U.upper
  short : ∃ s, l[m]? = some s ∧ ∀ t ∈ l, s.length ≤ t.length

theorem commonLoop_found (U : Uni) (fs : List Bytes) (pre : List Bytes) (c : List Rune) (minL minI : Nat)
    (index : Nat) (hi : index + 1 = pre.length) (h : Found U pre c minI)
    (hm : ∃ s, pre[minI]? = some s ∧ s.length = minL) :
    ∃ c', (commonLoop U fs index (encodeRunes c) minL minI).1 = encodeRunes c' ∧
      Found U (pre ++ fs) c' (commonLoop U fs index (encodeRunes c) minL minI).2 := by
  induction fs generalizing pre c minL minI index with
  | nil => exact ⟨c, rfl, by simpa [commonLoop] using h⟩
  | cons f fs ih =>
    have hsc := runesOf_encodeRunes h.scalar
    obtain ⟨s0, hs0, hl0⟩ := hm
    have hbase : ∀ m, (∃ s, (pre ++ [f])[m]? = some s ∧ ∀ t ∈ pre ++ [f], s.length ≤ t.length) →
        Found U (pre ++ [f]) (commonRunes U c (runesOf f)) m := by
      intro m hm
      refine ⟨?_, ?_, ?_, ?_, hm⟩
      · intro r hr
        exact h.scalar r ((commonRunes_prefix U c _).subset hr)
      · obtain ⟨s, hs, hp⟩ := h.first
        exact ⟨s, by simp [hs], (commonRunes_prefix U c _).trans hp⟩
      · intro s hs
        rw [List.mem_append, List.mem_singleton] at hs
        rcases hs with hs | rfl
        · exact ((commonRunes_prefix U c _).map _).trans (h.fold s hs)
        · exact commonRunes_fold U _ _
      · intro q hq
        exact commonRunes_max U q _ _ (h.max q (fun s hs => hq s (by simp [hs]))) (hq f (by simp))
    obtain ⟨s1, hs1, hshort⟩ := h.short
    rw [hs0] at hs1
    cases hs1
    have happ : pre ++ f :: fs = (pre ++ [f]) ++ fs := by simp
    rw [commonLoop]
    rw [hsc]
    split
    · rename_i hlt
      rw [happ]
      have hget : (pre ++ [f])[index + 1]? = some f := by rw [hi]; simp
      refine ih _ _ _ _ _ (by simp [hi]) (hbase _ ⟨f, hget, ?_⟩) ⟨f, hget, rfl⟩
      intro t ht
      rw [List.mem_append, List.mem_singleton] at ht
      rcases ht with ht | rfl
      · have := hshort t ht; omega
      · exact Nat.le_refl _
    · rename_i hge
      rw [happ]
      have hget : (pre ++ [f])[minI]? = some s0 := by
        have : minI < pre.length := by
          have := List.getElem?_eq_some_iff.mp hs0
          exact this.1
        rw [List.getElem?_append_left this, hs0]
      refine ih _ _ _ _ _ (by simp [hi]) (hbase _ ⟨s0, hget, ?_⟩) ⟨s0, hget, hl0⟩
      intro t ht
      rw [List.mem_append, List.mem_singleton] at ht
      rcases ht with ht | rfl
      · exact hshort t ht
      · omega

theorem encode_same_length {U : Uni} {c d : List Rune} (h : c.map U.upper = d.map U.upper)
    (hs : ∀ a ∈ c, ∀ b ∈ d, U.upper a = U.upper b → (encodeRune a).length = (encodeRune b).length) :
    (encodeRunes c).length = (encodeRunes d).length := by
  induction c generalizing d with
  | nil =>
    cases d with
    | nil => rfl
    | cons => simp at h
  | cons a c ih =>
    cases d with
    | nil => simp at h
    | cons b d =>
      simp only [List.map_cons, List.cons.injEq] at h
      rw [encodeRunes_cons, encodeRunes_cons, List.length_append, List.length_append,
        hs a (by simp) b (by simp) h.1,
        ih h.2 (fun x hx y hy => hs x (by simp [hx]) y (by simp [hy]))]

/-- **C34** for candidates in UTF-8 whose letters take equally many bytes in either case: the
common prefix is computed, it is a prefix of every candidate when case is ignored, every other
such text is a prefix of it, and it is spelled like the beginning of a shortest candidate. -/
theorem C34_partial {U : Uni} {l : List Bytes} (hne : l ≠ []) (hv : ∀ s ∈ l, ValidUtf8 s)
    (hs : SameSize U l) :
    ∃ p, commonPrefix U l = some p ∧ (∀ s ∈ l, FoldPrefix U p s) ∧
      (∀ q, (∀ s ∈ l, FoldPrefix U q s) → FoldPrefix U q p) ∧
      ∃ s ∈ l, p <+: s ∧ ∀ t ∈ l, s.length ≤ t.length := by
  cases l with
  | nil => exact absurd rfl hne
  | cons first rest =>
    have h0 : Found U [first] (runesOf first) 0 :=
      ⟨runesOf_isScalar first, ⟨first, by simp, List.prefix_refl _⟩,
        by intro s hs; simp at hs; subst hs; exact List.prefix_refl _,
        fun q hq => hq first (by simp), ⟨first, rfl, by intro t ht; simp at ht; subst ht; exact Nat.le_refl _⟩⟩
    obtain ⟨c, hc, hf⟩ := commonLoop_found U rest [first] _ first.length 0 0 rfl h0 ⟨first, rfl, rfl⟩
    rw [encodeRunes_runesOf (hv first (by simp))] at hc hf
    have happ : [first] ++ rest = first :: rest := rfl
    rw [happ] at hf
    obtain ⟨s, hsm, hshort⟩ := hf.short
    have hmem : s ∈ first :: rest := List.mem_of_getElem? hsm
    have hfold := hf.fold s hmem
    -- the beginning of the shortest candidate
    let d := (runesOf s).take c.length
    have hd : d.map U.upper = c.map U.upper := by
      rw [List.map_take]
      have := List.prefix_iff_eq_take.mp hfold
      rw [List.length_map] at this
      exact this.symm
    obtain ⟨s', hs', hp'⟩ := hf.first
    have hlen : (encodeRunes c).length = (encodeRunes d).length :=
      encode_same_length hd.symm (fun a ha b hb =>
        hs s' hs' s hmem a (hp'.subset ha) b (List.mem_of_mem_take hb))
    have hsplit : s = encodeRunes d ++ encodeRunes ((runesOf s).drop c.length) := by
      rw [← encodeRunes_append, List.take_append_drop, encodeRunes_runesOf (hv s hmem)]
    have htake : s.take (encodeRunes c).length = encodeRunes d := by
      rw [hlen]
      conv => lhs; rw [hsplit]
      rw [List.take_left]
    have hdr : runesOf (encodeRunes d) = d :=
      runesOf_encodeRunes (fun r hr => runesOf_isScalar s r (List.mem_of_mem_take hr))
    have hle : (encodeRunes c).length ≤ s.length := by
      rw [hlen, hsplit]
      simp [d]
    refine ⟨encodeRunes d, ?_, ?_, ?_, s, hmem, ⟨_, hsplit.symm⟩, hshort⟩
    · rw [commonPrefix]
      dsimp only
      rw [hsm]
      dsimp only
      rw [hc, if_pos hle, htake]
    · intro t ht
      unfold FoldPrefix
      rw [hdr, hd]
      exact hf.fold t ht
    · intro q hq
      unfold FoldPrefix
      rw [hdr, hd]
      exact hf.max _ hq

namespace Example

/-- `unicode.ToUpper` for ASCII, dotless i and long s. -/
def uni : Uni :=
  let up : Rune → Rune := fun r =>
    if 0x61 ≤ r ∧ r ≤ 0x7A then r - 0x20 else if r = 0x131 then 0x49 else if r = 0x17F then 0x53 else r
  { upper := up, fold := fun r => if r = 0x131 then r else up r }

/-- The hypotheses of `C34_partial` hold and the result is not trivial. -/
example : commonPrefix uni [b "Readme.md", b "readLine", b "reAd"] = some (b "reAd") := by
  decide +kernel
example : SameSize uni [b "Readme.md", b "readLine", b "reAd"] := by
  unfold SameSize
  decide +kernel
example : commonPrefix uni [b "あい", b "あう"] = some (b "あ") := by decide +kernel

end Example
open Example

/-- A dotless i takes two bytes, `i` one: the cut goes beyond the end of the shortest. -/
theorem C34_refuted_case : commonPrefix uni [b "aı", b "ai"] = none := by decide +kernel

/-- Here it cuts a letter too many: `sb` is not a prefix of `ſa`. -/
theorem C34_refuted_cut : commonPrefix uni [b "ſa", b "sb"] = some (b "sb") ∧
    ¬ FoldPrefix uni (b "sb") (b "ſa") := by
  constructor
  · decide +kernel
  · unfold FoldPrefix
    decide +kernel

/-- Two file names that are not UTF-8. -/
theorem C34_refuted_utf8 (U : Uni) : commonPrefix U [[0xFF], [0xFF]] = none := by
  have h : runesOf [0xFF] = [0xFFFD] := by decide +kernel
  unfold commonPrefix
  simp only [commonLoop, h, commonRunes]
  decide +kernel

end Readline
