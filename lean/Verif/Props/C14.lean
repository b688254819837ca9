import Verif.Proof.Word
import Verif.Proof.Carry
import Verif.Spec.Example
/-!
# C14: the word motions stop at word boundaries

`C14_backward_partial`, `C14_forward_partial`: in every state of a session the word motions go to the start of
the word before the cursor and to the start of the next word, if there is no tab on the side of the cursor where they
look.  A tab is not taken for white space (`C14_refuted_tab`), so the full statement is false.
`C14_backward`, `C14_forward` say for all lines what happens: a tab is part of a word.
-/
namespace Readline
open Spec

/-- Where BackwardWord has to go from the end of `l`: back over white space, then over the word. -/
structure Spec.BackTo (B : Bytes → Prop) (l a w z : List Bytes) : Prop where
  split : l = a ++ w ++ z
  blanks : ∀ u ∈ z, B u
  word : ∀ u ∈ w, ¬ B u
  /-- something was skipped unless the start of the line is reached -/
  nonempty : w = [] → a = []
  /-- the word is maximal -/
  start : a = [] ∨ ∃ a' u, a = a' ++ [u] ∧ B u

/-- White space as the editor sees it: a tab is not. -/
def Spec.SeenBlank (u : Bytes) : Prop := Blank u ∧ u ≠ [9]

/-- Where ForwardWord has to go from the start of `r`: over the rest of the word, then over white
space. -/
structure Spec.ForthTo (B : Bytes → Prop) (r w z b : List Bytes) : Prop where
  split : r = w ++ z ++ b
  word : ∀ u ∈ w, ¬ B u
  blanks : ∀ u ∈ z, B u
  /-- white space follows the word -/
  nonempty : z = [] → b = []
  /-- the next word starts here -/
  stop : b = [] ∨ ∃ u b', b = u :: b' ∧ ¬ B u

theorem isSpace_of {C : Cfg} {l : List Moji} (hb : ∀ m ∈ l, Built C m)
    {m : Moji} (hm : m ∈ l) : m.isSpace = true ↔ SeenBlank m.write := (hb m hm).isSpace_iff

theorem not_isSpace_of {C : Cfg} {l : List Moji} (hb : ∀ m ∈ l, Built C m)
    {m : Moji} (hm : m ∈ l) : m.isSpace = false ↔ ¬ SeenBlank m.write := by
  rw [← isSpace_of hb hm]
  simp

theorem backwardWord_leads {E : Env} {s s' : St} {l r : List Bytes}
    (hbuilt : ∀ m ∈ s.line, Built E.cfg m) (hat : At s l r)
    (ho : Leads s' (Ed.call E.logic .backwardWord s.ed).1) :
    ∃ a v z, BackTo SeenBlank l a v z ∧ At s' a (v ++ z ++ r) := by
  obtain ⟨ml, mr, ha, rfl, rfl⟩ := hat.ed
  have hline : s.line = ml ++ mr := ha.line
  obtain ⟨p, z, hp, hplen, hz, hpe⟩ := dropWhile_right Moji.isSpace ml
  obtain ⟨a, v, hav, halen, hv, hae⟩ := dropWhile_right (fun m : Moji => !m.isSpace) p
  have hmem : ∀ m ∈ a ++ v ++ z, m ∈ s.line := by
    intro m hm
    rw [hline, hp, hav]
    exact List.mem_append_left _ hm
  refine ⟨a.map Moji.write, v.map Moji.write, z.map Moji.write, ⟨?_, ?_, ?_, ?_, ?_⟩, ?_⟩
  · rw [hp, hav]; simp
  · intro u hu
    obtain ⟨m, hm, rfl⟩ := List.mem_map.mp hu
    exact (isSpace_of hbuilt (hmem m (by simp [hm]))).mp (hz m hm)
  · intro u hu
    obtain ⟨m, hm, rfl⟩ := List.mem_map.mp hu
    exact (not_isSpace_of hbuilt (hmem m (by simp [hm]))).mp (by simpa using hv m hm)
  · intro hv0
    have hv0 : v = [] := by simpa using hv0
    subst hv0
    rcases hae with rfl | ⟨a', x, rfl, hx⟩
    · rfl
    · exfalso
      rcases hpe with h0 | ⟨p', y, h0, hy⟩
      · rw [h0] at hav; simp at hav
      · rw [h0, List.append_nil] at hav
        have := List.append_inj_right' hav (by simp)
        simp at this
        subst this
        rw [hy] at hx
        simp at hx
  · rcases hae with rfl | ⟨a', x, rfl, hx⟩
    · left; rfl
    · right
      refine ⟨a'.map Moji.write, x.write, by simp, ?_⟩
      exact (isSpace_of hbuilt (hmem x (by simp))).mp (by simpa using hx)
  · have hcur : (Ed.skipWord s.ed.line (Ed.skipSpaces s.ed.line s.ed.cursor.toNat)) = a.length := by
      have h1 : Ed.skipSpaces s.ed.line s.ed.cursor.toNat = p.length := by
        unfold Ed.skipSpaces; rw [ha.take, hplen]
      rw [h1]
      unfold Ed.skipWord
      have h2 : s.ed.line.take p.length = p := by
        rw [ha.line, hp]; simp
      rw [h2, halen]
    have := ho.at (l := a) (r := v ++ z ++ mr) (by
      simp only [Ed.call]
      apply Ed.At.predict
      refine ⟨?_, ?_⟩
      · show s.ed.line = _
        rw [ha.line, hp, hav]; simp
      · dsimp only
        rw [hcur])
    simpa using this

theorem C14_backward {E : Env} {w : World} {s s' : St} {rc : Result} {l r : List Bytes}
    (hb : BuiltinKeys E) (hre : Reachable E w s) (hat : At s l r)
    (h : Performs E .backwardWord s s' rc) :
    ∃ a v z, BackTo SeenBlank l a v z ∧ At s' a (v ++ z ++ r) := by
  obtain ⟨i, x, ho, -⟩ := h.leads rfl
  exact backwardWord_leads (s := s.but i x) (fun m h => reachable_built hb hre m h) (hat.but i x) ho

theorem forwardWord_leads {E : Env} {s s' : St} {l r : List Bytes}
    (hbuilt : ∀ m ∈ s.line, Built E.cfg m) (hat : At s l r)
    (ho : Leads s' (Ed.call E.logic .forwardWord s.ed).1) :
    ∃ v z b, ForthTo SeenBlank r v z b ∧ At s' (l ++ v ++ z) b := by
  obtain ⟨ml, mr, ha, rfl, rfl⟩ := hat.ed
  have hline : s.line = ml ++ mr := ha.line
  obtain ⟨v, p, hp, hplen, hv, hpe⟩ := dropWhile_left (fun m : Moji => !m.isSpace) mr
  obtain ⟨z, b, hzb, hblen, hz, hbe⟩ := dropWhile_left Moji.isSpace p
  have hmem : ∀ m ∈ v ++ z ++ b, m ∈ s.line := by
    intro m hm
    rw [hline, hp, hzb]
    exact List.mem_append_right _ (by simpa using hm)
  refine ⟨v.map Moji.write, z.map Moji.write, b.map Moji.write, ⟨?_, ?_, ?_, ?_, ?_⟩, ?_⟩
  · rw [hp, hzb]; simp
  · intro u hu
    obtain ⟨m, hm, rfl⟩ := List.mem_map.mp hu
    exact (not_isSpace_of hbuilt (hmem m (by simp [hm]))).mp (by simpa using hv m hm)
  · intro u hu
    obtain ⟨m, hm, rfl⟩ := List.mem_map.mp hu
    exact (isSpace_of hbuilt (hmem m (by simp [hm]))).mp (hz m hm)
  · intro hz0
    have hz0 : z = [] := by simpa using hz0
    subst hz0
    rcases hbe with rfl | ⟨x, b', rfl, hx⟩
    · rfl
    · exfalso
      rcases hpe with h0 | ⟨y, p', h0, hy⟩
      · rw [h0] at hzb; simp at hzb
      · rw [h0] at hzb
        simp at hzb
        rw [hzb.1, hx] at hy
        simp at hy
  · rcases hbe with rfl | ⟨x, b', rfl, hx⟩
    · left; rfl
    · right
      refine ⟨x.write, b'.map Moji.write, by simp, ?_⟩
      exact (not_isSpace_of hbuilt (hmem x (by simp))).mp (by simpa using hx)
  · have := ho.at (l := ml ++ v ++ z) (r := b) (by
      simp only [Ed.call]
      refine ⟨?_, ?_⟩
      · show s.ed.line = _
        rw [ha.line, hp, hzb]; simp
      · show ((Ed.forwardPos s.ed.line s.ed.cursor.toNat : Nat) : Int) = _
        unfold Ed.forwardPos
        rw [ha.drop, hplen, hblen, ha.line, hp, hzb]
        simp
        omega)
    simpa using this

theorem C14_forward {E : Env} {w : World} {s s' : St} {rc : Result} {l r : List Bytes}
    (hb : BuiltinKeys E) (hre : Reachable E w s) (hat : At s l r)
    (h : Performs E .forwardWord s s' rc) :
    ∃ v z b, ForthTo SeenBlank r v z b ∧ At s' (l ++ v ++ z) b := by
  obtain ⟨i, x, ho, -⟩ := h.leads rfl
  exact forwardWord_leads (s := s.but i x) (fun m h => reachable_built hb hre m h) (hat.but i x) ho

theorem Spec.BackTo.blank {l a v z : List Bytes} (hnt : ∀ u ∈ l, u ≠ [9]) (h : BackTo SeenBlank l a v z) :
    BackTo Blank l a v z := by
  have hm : ∀ u ∈ a ++ v ++ z, u ≠ [9] := fun u hu => hnt u (by rw [h.split]; exact hu)
  refine ⟨h.split, fun u hu => (h.blanks u hu).1, fun u hu hb => h.word u hu ⟨hb, hm u (by simp [hu])⟩,
    h.nonempty, ?_⟩
  rcases h.start with h0 | ⟨a', u, h0, hu⟩
  · exact Or.inl h0
  · exact Or.inr ⟨a', u, h0, hu.1⟩

theorem Spec.ForthTo.blank {r v z b : List Bytes} (hnt : ∀ u ∈ r, u ≠ [9]) (h : ForthTo SeenBlank r v z b) :
    ForthTo Blank r v z b := by
  have hm : ∀ u ∈ v ++ z ++ b, u ≠ [9] := fun u hu => hnt u (by rw [h.split]; exact hu)
  refine ⟨h.split, fun u hu hb => h.word u hu ⟨hb, hm u (by simp [hu])⟩, fun u hu => (h.blanks u hu).1,
    h.nonempty, ?_⟩
  rcases h.stop with h0 | ⟨u, b', h0, hu⟩
  · exact Or.inl h0
  · exact Or.inr ⟨u, b', h0, fun hb => hu ⟨hb, hm u (by rw [h0]; simp)⟩⟩

theorem C14_backward_partial {E : Env} {w : World} {s s' : St} {rc : Result} {l r : List Bytes}
    (hb : BuiltinKeys E) (hre : Reachable E w s) (hnt : ∀ u ∈ l, u ≠ [9]) (hat : At s l r)
    (h : Performs E .backwardWord s s' rc) :
    ∃ a v z, BackTo Blank l a v z ∧ At s' a (v ++ z ++ r) := by
  obtain ⟨a, v, z, h1, h2⟩ := C14_backward hb hre hat h
  exact ⟨a, v, z, h1.blank hnt, h2⟩

theorem C14_forward_partial {E : Env} {w : World} {s s' : St} {rc : Result} {l r : List Bytes}
    (hb : BuiltinKeys E) (hre : Reachable E w s) (hnt : ∀ u ∈ r, u ≠ [9]) (hat : At s l r)
    (h : Performs E .forwardWord s s' rc) :
    ∃ v z b, ForthTo Blank r v z b ∧ At s' (l ++ v ++ z) b := by
  obtain ⟨v, z, b, h1, h2⟩ := C14_forward hb hre hat h
  exact ⟨v, z, b, h1.blank hnt, h2⟩

section
open Example
/-- Both motions from inside and between words; U+3000 is white space. -/
example :
    let go (ks : List String) (n : Nat) := look (after (env plain) { input := keys (["a", "b", "　", " ", "c", "d", " "] ++ ks) } (n + 7))
    let line := [b "a", b "b", b "　", b " ", b "c", b "d", b " "]
    [go ["\x1bb"] 1, go ["\x1bb", "\x1bb"] 2, go ["\x1bb", "\x1bb", "\x1bf"] 3,
     go ["\x1bb", "\x1bb", "\x1bf", "\x06", "\x1bb"] 5, go ["\x1bb", "\x1bf"] 2] =
    [.inr (line, 4, 0), .inr (line, 0, 0), .inr (line, 4, 0), .inr (line, 4, 0), .inr (line, 7, 0)] := by
  decide +kernel

/-- A tab does not end a word: from the end of `a<TAB>b` BackwardWord goes to the start. -/
theorem C14_refuted_tab :
    look (after (env plain) { input := keys ["a", "\t", "b", "\x1bb"] } 4) =
      .inr ([b "a", b "\t", b "b"], 0, 0) ∧
    look (after (env plain) { input := keys ["a", "\t", "b", "\x01", "\x1bf"] } 5) =
      .inr ([b "a", b "\t", b "b"], 3, 0) := by decide +kernel
end
end Readline
