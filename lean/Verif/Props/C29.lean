import Verif.Proof.Aligned
import Verif.Spec.Example
/-!
# C29: tabs end at multiples of four

In every state of a session in which a key is awaited, and after every repaint, a tab of the line
ends in a column (counted from the start of the line) that is a multiple of four; and when the tab
stands within the first 32767 columns it is the *next* such column, so that the tab takes one to
four columns.

Missing (hence `_partial`):
* beyond column 32767 a tab may take up to seven columns, because the column is kept in 16 bits
  (`C29_refuted_far`);
* a tab that was joined to another code point (U+200D, then a tab) is not aligned
  (`C29_refuted_joined`).
-/
namespace Readline
open Spec

/-- The first multiple of four right of a column. -/
structure NextStop (x y : Int) : Prop where
  right : x < y
  stop : 4 ∣ y
  first : ∀ z, x < z → 4 ∣ z → y ≤ z

/-- Every tab that is a unit of its own ends at a multiple of four. -/
def TabsAtStops (C : Cfg) (ms : List Moji) : Prop :=
  ∀ pre p post, ms = pre ++ .tab p :: post → 4 ∣ columns C pre + (Moji.tab p).width C

/-- … at the next one. -/
def TabsFill (C : Cfg) (ms : List Moji) : Prop :=
  ∀ pre p post, ms = pre ++ .tab p :: post → 0 ≤ columns C pre → columns C pre ≤ 32767 →
    NextStop (columns C pre) (columns C pre + (Moji.tab p).width C)

theorem Aligned.stops {C : Cfg} {ms : List Moji} (h : Aligned C ms) : TabsAtStops C ms := by
  intro pre p post e
  have := h pre p post e
  show 4 ∣ columns C pre + (4 - Int.tmod p 4)
  have h1 : (65536 : Int) ∣ columns C pre - p := by
    rw [this]
    unfold toInt16
    exact Int.dvd_self_sub_bmod
  obtain ⟨k, hk⟩ := h1
  have h2 := Int.tmod_add_mul_tdiv p 4
  generalize Int.tmod p 4 = t at *
  generalize Int.tdiv p 4 = d at *
  omega

theorem Aligned.fill {C : Cfg} {ms : List Moji} (h : Aligned C ms) : TabsFill C ms := by
  intro pre p post e h0 h1
  have hp := h pre p post e
  rw [toInt16_small h0 h1] at hp
  have e : (Moji.tab p).width C = 4 - columns C pre % 4 := by
    show 4 - Int.tmod p 4 = _
    rw [hp, Int.tmod_eq_emod_of_nonneg h0]
  rw [e]
  exact ⟨by omega, by omega, by intro z h2 h3; omega⟩

/-- After a repaint. -/
theorem C29_repaint_partial {E : Env} {s s' : St} (h : repaint E s = .ok s') :
    TabsAtStops E.cfg (s'.buf.map Cell.moji) ∧ TabsFill E.cfg (s'.buf.map Cell.moji) :=
  ⟨(repaint_aligned h).stops, (repaint_aligned h).fill⟩

/-- Whenever a key is awaited. -/
theorem C29_partial {E : Env} {w : World} {s : St} (hb : BuiltinKeys E) (h : Reachable E w s) :
    TabsAtStops E.cfg (s.buf.map Cell.moji) ∧ TabsFill E.cfg (s.buf.map Cell.moji) :=
  ⟨Aligned.stops (reachable_aligned hb h), Aligned.fill (reachable_aligned hb h)⟩

section
open Example

/-- Typing Home and "xy" with a line of two tabs: the tab shrinks as text is put before it, and
becomes wide again. -/
def Example.tabColumns (n : Nat) : List Moji :=
  match after { env plain with default := b "ab\tc\td" } { input := keys ["\x01", "x", "y", "z"] } n with
  | .ok s => s.buf.map Cell.moji
  | .error _ => []

example : tabColumns 1 = [.raw 97, .raw 98, .tab 2, .raw 99, .tab 5, .raw 100] := by decide +kernel
example : tabColumns 2 = [.raw 120, .raw 97, .raw 98, .tab 3, .raw 99, .tab 5, .raw 100] := by
  decide +kernel
example : tabColumns 3 = [.raw 120, .raw 121, .raw 97, .raw 98, .tab 4, .raw 99, .tab 9, .raw 100] := by
  decide +kernel

/-- A terminal on which the code point `a` takes 32769 columns. -/
def Example.huge : Cfg := { plain with width := fun r => if r = 97 then 32769 else 1 }

def Example.far : List Moji :=
  match repaint (env huge) { buf := (stringToMoji plain (b "a\tb")).map fun m => { moji := m } } with
  | .ok s => s.buf.map Cell.moji
  | .error _ => []

/-- Behind column 32767 a tab may take more than four columns (here seven). -/
theorem C29_refuted_far : ∃ pre p post, far = pre ++ .tab p :: post ∧
    ¬ NextStop (columns huge pre) (columns huge pre + (Moji.tab p).width huge) := by
  refine ⟨[.raw 97], -32767, [.raw 98], by decide +kernel, ?_⟩
  intro h
  have := h.first 32772 (by decide) (by decide)
  exact absurd this (by decide +kernel)

def Example.glued : List Moji :=
  match startSt { env full with default := b "abc‍\td" } { input := keys ["\r"] } with
  | .ok s => s.buf.map Cell.moji
  | .error _ => []

/-- A tab joined to the character before it does not end at a multiple of four: the unit is
announced to take three columns and ends in column five. -/
theorem C29_refuted_joined : ∃ pre m post, glued = pre ++ m :: post ∧
    (9 : UInt8) ∈ m.write.getLast? ∧ ¬ 4 ∣ columns full pre + m.width full := by
  refine ⟨[.raw 97, .raw 98], .zwj (.raw 99) (.raw 9), [.raw 100], by decide +kernel,
    by decide +kernel, by decide +kernel⟩

end
end Readline
