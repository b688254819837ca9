import Verif.Proof.Carry
import Verif.Proof.Jam
import Verif.Spec.Example
/-!
# C13: SwapChar exchanges two neighbours only

`C13`: what SwapChar does to the two halves of the line.  `C13_undo_partial`: Undo brings back the
old units when the cursor was not at the end of the line.  At the end of the line the undo entry
is wrong: Undo right after it panics for every line (`C13_end`, `C13_refuted`).
-/
namespace Readline
open Spec

/-- What SwapChar makes of the two halves of the line. -/
def Spec.swapped (l r : List Bytes) : List Bytes × List Bytes :=
  match l.reverse, r with
  | x :: l', y :: r' => (l'.reverse ++ [y, x], r')
  | y :: x :: l', [] => (l'.reverse ++ [y, x], [])
  | _, _ => (l, r)

theorem swapAt_append (l r : List Moji) (x y : Moji) :
    swapAt (l ++ x :: y :: r) l.length = l ++ y :: x :: r := by
  unfold swapAt
  have h1 : (l ++ x :: y :: r)[l.length]? = some x := by simp
  have h2 : (l ++ x :: y :: r)[l.length + 1]? = some y := by
    rw [List.getElem?_append_right (by omega)]
    simp
  rw [h1, h2]
  dsimp only
  rw [List.set_append_right _ _ (by omega), List.set_append_right _ _ (by omega)]
  simp

namespace Ed
variable {e : Ed} {l r : List Moji} {x y : Moji}

theorem swap_mid (h : e.At (l ++ [x]) (y :: r)) :
    e.swap.At (l ++ [y, x]) r ∧
    e.swap.undoes = { pos := l.length, del := 2, text := x.write ++ y.write } :: e.undoes := by
  have hc := h.cursor
  have hl := h.line
  have hlen := h.len
  have hn : (e.cursor - 1).toNat = l.length := by rw [hc]; simp
  have hl' : e.line = l ++ x :: y :: r := by rw [hl]; simp
  unfold Ed.swap
  rw [if_neg (by rw [hlen, hc]; simp; omega), if_neg (by rw [hc]; simp; omega)]
  refine ⟨⟨?_, ?_⟩, ?_⟩
  · dsimp only
    rw [hn, hl', swapAt_append]
    simp
  · dsimp only
    rw [hc]; simp; omega
  · dsimp only
    rw [hn, hl', hc]
    simp [lineText]

theorem swap_end (h : e.At (l ++ [x, y]) []) : e.swap.At (l ++ [y, x]) [] := by
  have hc := h.cursor
  have hl := h.line
  have hlen := h.len
  have hn : (e.cursor - 2).toNat = l.length := by rw [hc]; simp
  have hl' : e.line = l ++ x :: y :: [] := by rw [hl]; simp
  unfold Ed.swap
  rw [if_pos (by rw [hlen, hc]; simp), if_neg (by rw [hc]; simp; omega)]
  refine ⟨?_, ?_⟩
  · dsimp only
    rw [hn, hl', swapAt_append]
    simp
  · dsimp only
    rw [hc]; simp

end Ed

theorem swap_leads {E : Env} {s s' : St} {rc : Result} {l r : List Bytes}
    (ho : Leads s' (Ed.call E.logic .swapChar s.ed).1) (hr : rc = (Ed.call E.logic .swapChar s.ed).2) (hat : At s l r) :
    At s' (swapped l r).1 (swapped l r).2 ∧ s'.clip = s.clip ∧ rc = .cont := by
  refine ⟨?_, ?_, hr⟩
  · obtain ⟨ml, mr, ha, rfl, rfl⟩ := hat.ed
    rcases List.eq_nil_or_concat ml with rfl | ⟨ml, x, rfl⟩
    · have : (Ed.call E.logic .swapChar s.ed).1 = s.ed := by
        simp only [Ed.call, Ed.swap]
        have hc := ha.cursor
        simp at hc
        split
        · rw [if_pos (by omega)]
        · rw [if_pos (by omega)]
      rw [this] at ho
      simpa [swapped] using ho.at ha
    · rw [List.concat_eq_append] at ha ⊢
      cases mr with
      | cons y mr =>
        have := ho.at (Ed.swap_mid ha).1
        simpa [swapped] using this
      | nil =>
        rcases List.eq_nil_or_concat ml with rfl | ⟨ml, z, rfl⟩
        · have : (Ed.call E.logic .swapChar s.ed).1 = s.ed := by
            simp only [Ed.call, Ed.swap]
            have hc := ha.cursor
            have hl := ha.len
            simp at hc hl
            rw [if_pos (by omega), if_pos (by omega)]
          rw [this] at ho
          simpa [swapped] using ho.at ha
        · have := ho.at (Ed.swap_end (l := ml) (x := z) (y := x) (by simpa using ha))
          simpa [swapped] using this
  · rw [ho.clip]
    simp only [Ed.call, Ed.swap]
    repeat' split
    all_goals rfl

theorem C13 {E : Env} {s s' : St} {rc : Result} {l r : List Bytes}
    (h : Performs E .swapChar s s' rc) (hat : At s l r) :
    At s' (swapped l r).1 (swapped l r).2 ∧ s'.clip = s.clip ∧ rc = .cont := by
  obtain ⟨i, x, ho, hr⟩ := h.leads rfl
  exact swap_leads (s := s.but i x) ho hr (hat.but i x)

theorem swap_undo_leads {E : Env} {s s1 s2 : St} {l r : List Bytes} {x y : Bytes}
    (hbuilt : ∀ m ∈ s.line, Built E.cfg m) (ht : Tidy E.cfg s) (hat : At s (l ++ [x]) (y :: r))
    (ho1 : Leads s1 (Ed.call E.logic .swapChar s.ed).1) (ho2 : Leads s2 (Ed.call E.logic .undo s1.ed).1) :
    At s2 (l ++ [x, y]) r := by
  have htail := tailTidy_of hbuilt ht
  obtain ⟨ml, mr, ha, e1, e2⟩ := hat.ed
  rcases List.eq_nil_or_concat ml with rfl | ⟨ml, mx, rfl⟩
  · simp at e1
  rw [List.concat_eq_append] at ha e1
  cases mr with
  | nil => simp at e2
  | cons my mr =>
  simp at e1 e2
  obtain ⟨rfl, rfl⟩ := e1
  obtain ⟨rfl, rfl⟩ := e2
  have hl : s.line = ml ++ mx :: my :: mr := by
    have := ha.line
    simp at this
    exact this
  obtain ⟨hsw, hun⟩ := Ed.swap_mid ha
  have hbx : Built E.cfg mx := hbuilt _ (by rw [hl]; simp)
  have hby : Built E.cfg my := hbuilt _ (by rw [hl]; simp)
  have hoy : ¬ Orphan E.cfg my := htail _ (by rw [hl]; cases ml <;> simp)
  have hseg : segs E.cfg (mx.write ++ my.write) = [mx, my] := by
    have := segs_lineText' (C := E.cfg) mx [my] (by intro z hz; simp at hz; rcases hz with rfl | rfl <;> assumption)
      (by intro z hz; simp at hz; rw [hz]; exact hoy)
    simpa [lineText] using this
  refine (?_ : At s2 ((ml ++ [mx, my]).map Moji.write) (mr.map Moji.write)) |> (by simpa using ·)
  apply ho2.at
  have hu1 : s1.ed.undoes = { pos := ml.length, del := 2, text := mx.write ++ my.write } :: s.undoes :=
    ho1.undoes.trans hun
  have hl1 : s1.ed.line = ml ++ my :: mx :: mr := by
    have := ho1.line.trans hsw.line
    simp at this
    exact this
  have hne : mx.write ++ my.write ≠ [] := by
    intro h
    exact hbx.write_ne_nil (List.append_eq_nil_iff.mp h).1
  simp only [Ed.call, Ed.undo]
  rw [hu1]
  dsimp only
  apply Ed.At.predict
  rw [if_pos hne]
  have hdel : (if 2 > 0 then s1.ed.line.take (ml.length : Int).toNat ++
      s1.ed.line.drop ((ml.length : Int).toNat + 2) else s1.ed.line) = ml ++ mr := by
    rw [if_pos (by omega), hl1]
    simp [List.drop_append]
  refine ⟨?_, ?_⟩
  · dsimp only
    rw [hdel]
    have : segs E.logic.cfg (mx.write ++ my.write) = [mx, my] := hseg
    rw [this]
    simp
  · dsimp only
    have : segs E.logic.cfg (mx.write ++ my.write) = [mx, my] := hseg
    rw [this]
    simp

/-- Undo after SwapChar inside the line brings the units back and puts the cursor after the two.
Missing: the cursor at the end of the line, where the claim is false. -/
theorem C13_undo_partial {E : Env} {w : World} {s s1 s2 : St} {rc1 rc2 : Result}
    {l r : List Bytes} {x y : Bytes} (hb : BuiltinKeys E) (hre : Reachable E w s) (ht : Tidy E.cfg s)
    (hat : At s (l ++ [x]) (y :: r)) (h1 : Performs E .swapChar s s1 rc1)
    (h2 : Performs E .undo s1 s2 rc2) : At s2 (l ++ [x, y]) r := by
  obtain ⟨i, x, ho1, -⟩ := h1.leads rfl
  obtain ⟨j, y, ho2, -⟩ := h2.leads rfl
  exact swap_undo_leads (s := s.but i x) (s1 := s1.but j y) (fun m h => reachable_built hb hre m h) ht (hat.but i x)
    (ho1.but j y) ho2

theorem swap_end_leads {E : Env} {s s1 : St} {l : List Bytes} {x y : Bytes} (hat : At s (l ++ [x, y]) [])
    (ho : Leads s1 (Ed.call E.logic .swapChar s.ed).1) : ∃ p, Cmd.call E .undo s1 = .error p ∧ p.kind = .bounds := by
  obtain ⟨ml, mr, ha, e1, e2⟩ := hat.ed
  have hmr : mr = [] := by simpa using e2.symm
  subst hmr
  have hlen : 2 ≤ ml.length := by
    have := congrArg List.length e1
    simp at this
    omega
  have hl : (s.ed.line.length : Int) = s.ed.cursor := by
    rw [ha.line, ha.cursor]; simp
  have hs := Ed.swap_atEnd hl (by rw [ha.cursor]; omega)
  have hu := ho.undoes.trans hs.2
  have hln := (congrArg List.length (ho.line.trans hs.1)).trans (swapAt_length _ _)
  have hln' : (s1.len : Int) = s.ed.cursor := by
    rw [← hl, ← ed_len s1]
    exact congrArg Int.ofNat hln
  have hu : s1.undoes = _ := hu
  show ∃ p, cmdUndo E s1 = .error p ∧ _
  unfold cmdUndo
  rw [hu]
  dsimp only
  rw [if_pos (by omega)]
  unfold bufDelete
  rw [if_neg]
  · exact ⟨_, rfl, rfl⟩
  · show ¬ (0 ≤ s.ed.cursor ∧ s.ed.cursor + ((2 : Nat) : Int) ≤ s1.len)
    omega

/-- At the end of the line Undo after SwapChar always panics, called or by a key: an index out of range. -/
theorem C13_end {E : Env} {s s1 : St} {rc1 : Result} {l : List Bytes} {x y : Bytes}
    (hat : At s (l ++ [x, y]) []) (h1 : Performs E .swapChar s s1 rc1) :
    (∃ p, Cmd.call E .undo s1 = .error p ∧ p.kind = .bounds) ∧
    ∀ k rest, s1.input = .key k :: rest → lookupCommand E k = .undo →
      ∃ p, step E s1 = .error p ∧ p.kind = .bounds := by
  obtain ⟨i, z, ho, -⟩ := h1.leads rfl
  refine ⟨swap_end_leads (s := s.but i z) (hat.but i z) ho, fun k rest hi hk => ?_⟩
  obtain ⟨p, h, hp⟩ := swap_end_leads (s := s.but i z)
    (s1 := ({ s1.emit .await with input := rest } : St).emit .cursorOff) (hat.but i z)
    ⟨ho.line, ho.cursor, ho.undoes, ho.clip, ho.pending, ho.histPtr, ho.modHist⟩
  refine ⟨p, ?_, hp⟩
  rw [step_key hi, hk]
  unfold execCmd
  show (Cmd.call E .undo (({ s1.emit .await with input := rest } : St).emit .cursorOff) >>= _) = _
  rw [h]
  rfl

section
open Example
/-- Inside the line, at its start, at its end; then Undo. -/
example :
    let go (ks : List String) (n : Nat) := look (after (env plain) { input := keys (["a", "あ", "b"] ++ ks) } (n + 3))
    [go ["\x02", "\x14"] 2, go ["\x02", "\x14", "\x1a"] 3, go ["\x02", "\x02", "\x14"] 3,
     go ["\x01", "\x14"] 2, go ["\x14"] 1] =
    [.inr ([b "a", b "b", b "あ"], 3, 0), .inr ([b "a", b "あ", b "b"], 3, 0),
     .inr ([b "あ", b "a", b "b"], 2, 0), .inr ([b "a", b "あ", b "b"], 0, 0),
     .inr ([b "a", b "b", b "あ"], 3, 0)] := by decide +kernel

/-- Undo after SwapChar at the end of the line panics. -/
theorem C13_refuted :
    look (after (env plain) { input := keys ["a", "b", "\x14"] } 3) = .inr ([b "b", b "a"], 2, 0) ∧
    look (after (env plain) { input := keys ["a", "b", "\x14", "\x1a"] } 4) = .inl .bounds := by
  decide +kernel
end
end Readline
