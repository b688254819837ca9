import Verif.Proof.Pending
import Verif.Spec.Search
/-!
# What the commands see of the input

Commands take keys and errors from the input and pass over the resizes.
-/
namespace Readline

/-- The events without the resizes. -/
def Spec.noResize : List Ev → List Ev
  | [] => []
  | .resize _ :: evs => noResize evs
  | .key k :: evs => .key k :: noResize evs
  | .err x :: evs => .err x :: noResize evs

/-- The events without the widths of the resizes. -/
def Spec.noWidth : List Ev → List Ev
  | [] => []
  | .resize _ :: evs => .resize 0 :: noWidth evs
  | .key k :: evs => .key k :: noWidth evs
  | .err x :: evs => .err x :: noWidth evs

open Spec

/-- A way to look at the events that shows keys and errors. -/
structure Blind (f : List Ev → List Ev) : Prop where
  pop (evs) : popKey (f evs) = (popKey evs).map fun p => (p.1, f p.2)

theorem blind_noResize : Blind noResize := by
  refine ⟨fun evs => ?_⟩
  induction evs with
  | nil => rfl
  | cons x evs ih =>
    cases x with
    | resize w =>
      rw [noResize, ih, popKey]
      cases popKey evs <;> rfl
    | key k => simp [noResize, popKey]
    | err k => simp [noResize, popKey]

theorem popKey_noWidth (evs : List Ev) :
    popKey (noWidth evs) = (popKey evs).map fun p => (p.1, noWidth p.2) := by
  induction evs with
  | nil => rfl
  | cons x evs ih =>
    cases x with
    | resize w =>
      rw [noWidth, popKey, ih, popKey]
      cases h : popKey evs with
      | none => rfl
      | some p => obtain ⟨ev, rest⟩ := p; cases ev <;> rfl
    | key k => simp [noWidth, popKey]
    | err k => simp [noWidth, popKey]

theorem blind_noWidth : Blind noWidth := ⟨popKey_noWidth⟩

namespace Ed

/-- The state with other input. -/
def withInput (e : Ed) (i : List Ev) : Ed := { e with input := i }

variable {L : Logic} {i : List Ev}

theorem predict_withInput (e : Ed) : predict L (e.withInput i) = (predict L e).withInput i := by
  unfold predict withInput
  split
  · rfl
  · dsimp only; split <;> rfl

theorem delete_withInput (e : Ed) (p n : Int) : (e.withInput i).delete p n = (e.delete p n).withInput i := by
  unfold delete withInput
  have : Ed.len { e with input := i } = e.len := rfl
  dsimp only
  rw [this]
  split <;> rfl

theorem replace_withInput (e : Ed) (p : Int) (t : Bytes) :
    replace L (e.withInput i) p t = (replace L e p t).withInput i := by
  unfold replace
  dsimp only
  rw [delete_withInput, ← predict_withInput]
  rfl

theorem backspace_withInput (e : Ed) : backspace L (e.withInput i) = (backspace L e).withInput i := by
  unfold backspace
  have h : (e.withInput i).cursor = e.cursor := rfl
  rw [h]
  split
  · rw [← predict_withInput, ← delete_withInput]; rfl
  · rfl

theorem typeTail_withInput (e : Ed) (t : Bytes) :
    typeTail L (e.withInput i) t = (typeTail L e t).withInput i := by
  unfold typeTail
  dsimp only
  rw [← predict_withInput]
  rfl

theorem type_withInput (e : Ed) (k : Bytes) : type L (e.withInput i) k = (type L e k).withInput i := by
  unfold type
  dsimp only
  have h1 : (e.withInput i).cursor = e.cursor := rfl
  have h2 : (e.withInput i).line = e.line := rfl
  have h3 : (e.withInput i).pending = e.pending := rfl
  rw [h1, h2, h3]
  split
  · rw [← backspace_withInput]; rfl
  · split
    · rw [backspace_withInput, typeTail_withInput]
    · split
      · exact typeTail_withInput { e with pending := [] } _
      · exact typeTail_withInput e _

theorem wordRubout_withInput (e : Ed) : wordRubout L (e.withInput i) = (wordRubout L e).withInput i := by
  unfold wordRubout
  rw [← predict_withInput]
  dsimp only
  congr 1
  have := fun c p n => delete_withInput (i := i) { e with clip := c } p n
  unfold withInput at this ⊢
  dsimp only at this ⊢
  rw [this]

theorem swap_withInput (e : Ed) : swap (e.withInput i) = (swap e).withInput i := by
  unfold swap withInput
  have : Ed.len { e with input := i } = e.len := rfl
  dsimp only
  rw [this]
  split
  · split <;> rfl
  · split <;> rfl

theorem undo_withInput (e : Ed) : undo L (e.withInput i) = (undo L e).withInput i := by
  unfold undo
  have : (e.withInput i).undoes = e.undoes := rfl
  rw [this]
  split
  · rfl
  · dsimp only
    split
    · rw [← predict_withInput]
      congr 1
    · rw [← predict_withInput]
      congr 1

theorem saveHist_withInput (e : Ed) : saveHist L (e.withInput i) = (saveHist L e).withInput i := by
  unfold saveHist
  have : (e.withInput i).text = e.text := rfl
  have h2 : (e.withInput i).histPtr = e.histPtr := rfl
  rw [this, h2]
  split <;> rfl

theorem showHist_withInput (e : Ed) : showHist L (e.withInput i) = (showHist L e).withInput i := by
  unfold showHist
  dsimp only
  have : getHist L (killWhole (e.withInput i)) = getHist L (killWhole e) := rfl
  rw [this]
  split <;> rfl

theorem prevHist_withInput (e : Ed) : prevHist L (e.withInput i) = (prevHist L e).withInput i := by
  unfold prevHist
  have h2 : (e.withInput i).histPtr = e.histPtr := rfl
  rw [h2]
  split
  · rfl
  · split
    · rfl
    · dsimp only
      rw [← showHist_withInput]
      split
      · have := saveHist_withInput (L := L) (i := i) { e with histPtr := histLen L + 1 }
        unfold withInput at this ⊢
        dsimp only at this ⊢
        rw [this]
      · rw [saveHist_withInput]; rfl

theorem nextHist_withInput (e : Ed) : nextHist L (e.withInput i) = (nextHist L e).withInput i := by
  unfold nextHist
  have h2 : (e.withInput i).histPtr = e.histPtr := rfl
  rw [h2]
  split
  · rfl
  · split
    · rfl
    · dsimp only
      rw [← showHist_withInput, saveHist_withInput]; rfl

/-- The state with another look at its input. -/
def see (f : List Ev → List Ev) (e : Ed) : Ed := e.withInput (f e.input)

theorem getKey_see {f} (hf : Blind f) (e : Ed) : getKey (see f e) = ((getKey e).1, see f (getKey e).2) := by
  unfold getKey
  have : (see f e).input = f e.input := rfl
  rw [this, hf.pop]
  cases h : popKey e.input with
  | none => rfl
  | some p =>
    obtain ⟨ev, rest⟩ := p
    cases ev <;> rfl

theorem searchLoop_see {f} (hf : Blind f) (n : Nat) (it : ISt) (e : Ed) :
    searchLoop L n it (see f e) = see f (searchLoop L n it e) := by
  induction n generalizing it e with
  | zero => rfl
  | succ n ih =>
    rw [searchLoop, searchLoop, getKey_see hf]
    cases h : getKey e with
    | mk k e' =>
      cases k with
      | none => rfl
      | some k =>
        dsimp only
        simp only [ih]
        have hrep : ∀ (u : Undo) (t : Bytes),
            replace L { see f e' with undoes := u :: (see f e').undoes, line := [], cursor := 0 } 0 t =
              see f (replace L { e' with undoes := u :: e'.undoes, line := [], cursor := 0 } 0 t) := by
          intro u t
          have h1 := replace_withInput (L := L) (i := f e'.input)
            { e' with undoes := u :: e'.undoes, line := [], cursor := 0 } 0 t
          have hi : (replace L { e' with undoes := u :: e'.undoes, line := [], cursor := 0 } 0 t).input =
              e'.input := by
            unfold replace
            simp only [predict_input]
            unfold Ed.delete Ed.insert
            split <;> rfl
          unfold see
          rw [hi]
          exact h1
        have ht : (see f e').text = e'.text := rfl
        rw [hrep, ht]
        split
        · rfl
        · split
          · rfl
          · split
            · rfl
            · split
              · rfl
              · split
                · rfl
                · split <;> rfl

theorem searchLoop_fuel (n m : Nat) (it : ISt) (e : Ed) (hn : e.input.length < n)
    (hm : e.input.length < m) : searchLoop L n it e = searchLoop L m it e := by
  induction n generalizing m it e with
  | zero => omega
  | succ n ih =>
    cases m with
    | zero => omega
    | succ m =>
      rw [searchLoop, searchLoop]
      cases h : getKey e with
      | mk k e' =>
        cases k with
        | none => rfl
        | some k =>
          dsimp only
          have hlen : e'.input.length < e.input.length := by
            unfold getKey at h
            cases hp : popKey e.input with
            | none => rw [hp] at h; simp at h
            | some p =>
              have := popKey_length hp
              rw [hp] at h
              obtain ⟨ev, rest⟩ := p
              cases ev <;> simp at h
              obtain ⟨_, rfl⟩ := h
              exact this
          have hi := fun it => ih m it e' (by omega) (by omega)
          simp only [hi]

/-- Everything but the two commands that read keys themselves leaves the input alone. -/
theorem call_withInput (c : Cmd) (hq : c ≠ .quotedInsert) (hs : c ≠ .isearchBackward) (e : Ed) :
    call L c (e.withInput i) = ((call L c e).1.withInput i, (call L c e).2) := by
  cases c with
  | quotedInsert => exact absurd rfl hq
  | isearchBackward => exact absurd rfl hs
  | acceptLine => rfl
  | interrupt => rfl
  | beginningOfLine => simp only [call, ← predict_withInput]; rfl
  | backwardChar =>
    simp only [call]
    have h1 : (e.withInput i).cursor = e.cursor := rfl
    rw [h1]
    split
    · rfl
    · simp only [← predict_withInput]; rfl
  | endOfLine => rfl
  | forwardChar =>
    simp only [call]
    have h1 : (e.withInput i).cursor = e.cursor := rfl
    have h2 : (e.withInput i).len = e.len := rfl
    have h3 : (e.withInput i).suffixList = e.suffixList := rfl
    rw [h1, h2, h3, replace_withInput]
    split
    · split <;> rfl
    · rfl
  | backwardDeleteChar => simp only [call, backspace_withInput]
  | deleteChar =>
    simp only [call, ← predict_withInput, ← delete_withInput]; rfl
  | deleteOrAbort =>
    simp only [call]
    have h2 : (e.withInput i).len = e.len := rfl
    rw [h2]
    split
    · simp only [← predict_withInput, ← delete_withInput]; rfl
    · rfl
  | killLine => rfl
  | killWholeLine => rfl
  | unixWordRubout => simp only [call, wordRubout_withInput]
  | unixLineDiscard =>
    simp only [call]
    have := fun c p n => delete_withInput (i := i) { e with clip := c } p n
    simp only [← predict_withInput]
    unfold withInput at this ⊢
    dsimp only at this ⊢
    rw [this]
  | clearScreen => simp only [call, ← predict_withInput]
  | repaintOnNewline => simp only [call, ← predict_withInput]
  | yank =>
    simp only [call]
    have h1 : (e.withInput i).clip = e.clip := rfl
    rw [h1]
    cases e.clip with
    | none => rfl
    | some t => simp only [replace_withInput]; rfl
  | yankWithQuote =>
    simp only [call]
    have h1 : (e.withInput i).clip = e.clip := rfl
    rw [h1]
    cases e.clip with
    | none => rfl
    | some t => simp only [replace_withInput]; rfl
  | swapChar => simp only [call, swap_withInput]
  | backwardWord => simp only [call, ← predict_withInput]; rfl
  | forwardWord => rfl
  | undo => simp only [call, undo_withInput]
  | previousHistory => simp only [call, prevHist_withInput]
  | nextHistory => simp only [call, nextHist_withInput]
  | selfInsert k => simp only [call, type_withInput]
  | completion P =>
    simp only [call, complete]
    have h1 : (e.withInput i).cursor = e.cursor := rfl
    have h2 : (e.withInput i).line = e.line := rfl
    rw [h1, h2]
    generalize completionOf P.uni P.completer P.postfix_ ((e.line.take e.cursor.toNat).map Moji.write) = o
    cases o with
    | crash => rfl
    | nothing => rfl
    | bell l =>
      dsimp only
      split
      · rw [predict_withInput]
      · rfl
    | insert pos t => simp only [replace_withInput]
  | custom f => rfl

theorem typeTail_input (e : Ed) (t : Bytes) : (typeTail L e t).input = e.input := by
  unfold typeTail
  simp only [predict_input]
  rfl

theorem delete_input (e : Ed) (p n : Int) : (e.delete p n).input = e.input := by
  unfold Ed.delete; split <;> rfl

theorem backspace_input (e : Ed) : (backspace L e).input = e.input := by
  unfold backspace
  split
  · rw [predict_input, delete_input]
  · rfl

theorem type_input' (e : Ed) (k : Bytes) : (type L e k).input = e.input := by
  unfold type
  dsimp only
  split
  · rw [backspace_input]
  · split
    · rw [typeTail_input, backspace_input]
    · split
      · rw [typeTail_input]
      · rw [typeTail_input]

theorem showHist_input (e : Ed) : (showHist L e).input = e.input := by
  unfold showHist
  dsimp only
  split <;> rfl

theorem saveHist_input (e : Ed) : (saveHist L e).input = e.input := by
  unfold saveHist
  split <;> rfl

theorem replace_input (e : Ed) (p : Int) (t : Bytes) : (replace L e p t).input = e.input := by
  unfold replace
  simp only [predict_input]
  exact delete_input _ _ _

theorem call_same_input (c : Cmd) (hq : c ≠ .quotedInsert) (hs : c ≠ .isearchBackward) (e : Ed) :
    (call L c e).1.input = e.input := by
  have h := call_withInput (L := L) (i := e.input) c hq hs e
  have : e.withInput e.input = e := rfl
  rw [this] at h
  have h' := congrArg (fun p => p.1.input) h
  exact h'

/-- The commands do not see more of the input than keys and errors. -/
theorem call_see {f} (hf : Blind f) (c : Cmd) (e : Ed) :
    call L c (see f e) = (see f (call L c e).1, (call L c e).2) := by
  by_cases hq : c = .quotedInsert
  · subst hq
    simp only [call]
    rw [getKey_see hf]
    cases h : getKey e with
    | mk k e' =>
      cases k with
      | none => rfl
      | some k =>
        dsimp only
        unfold see
        rw [type_withInput, type_input']
  · by_cases hs : c = .isearchBackward
    · subst hs
      simp only [call]
      have h := searchLoop_see (L := L) hf (e.input.length + (f e.input).length + 1)
        { lastPos := histLen L - 1 } e
      rw [searchLoop_fuel _ ((see f e).input.length + 1) _ _ (by
          show (f e.input).length < _; omega) (by omega),
        searchLoop_fuel (L := L) (e.input.length + (f e.input).length + 1) (e.input.length + 1) _ e
          (by omega) (by omega)] at h
      rw [h]
    · have h := call_withInput (L := L) (i := f e.input) c hq hs e
      unfold see
      rw [h, call_same_input c hq hs]

theorem predict_see {f} (e : Ed) : predict L (see f e) = see f (predict L e) := by
  unfold see
  rw [predict_withInput, predict_input]

end Ed
end Readline
