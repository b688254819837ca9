import Verif.Proof.Carry
import Verif.Spec.Browse
import Verif.Props.C04
/-!
# C16: history browsing shows the right entry and stays in range

`C16`: Up and Down go to the position `Spec.up`/`Spec.down` gives and, if that is another one, show
what is remembered for it or else the history entry; otherwise they change nothing.
`C16_text`: the text shown for an entry is that entry.  `C16_range`: in every session the position
stays in the history, and only Up and Down change it.
-/
namespace Readline
open Spec

theorem segs_units (C : Cfg) (t : Bytes) : (segs C t).map Moji.write = unitsOf C t := by
  simp [segs, unitsOf, Function.comp_def]

namespace Ed
variable {L : Logic} {e : Ed}

theorem showHist_line : (Ed.showHist L e).line = segs L.cfg (getHist L e) ∧
    (Ed.showHist L e).cursor = (segs L.cfg (getHist L e)).length := by
  have hg : getHist L (Ed.killWhole e) = getHist L e := rfl
  unfold Ed.showHist
  dsimp only
  rw [hg]
  split
  · refine ⟨?_, ?_⟩
    · simp [Ed.insert, Ed.killWhole]
    · simp [Ed.insert, Ed.killWhole, Ed.len]
  · rename_i h
    have h : getHist L e = [] := by simpa using h
    rw [h, segs_nil]
    exact ⟨rfl, rfl⟩

theorem saveHist_modHist {p : Int} (h : p ≠ e.histPtr) : (saveHist L e).modHist p = e.modHist p := by
  unfold saveHist
  split
  · rfl
  · dsimp only; rw [if_neg h]

theorem getHist_eq (L : Logic) (e : Ed) :
    getHist L e = (e.modHist e.histPtr).getD (if 0 ≤ e.histPtr then (L.history[e.histPtr.toNat]?).getD [] else []) := by
  unfold getHist
  split
  · rename_i h; rw [h]; rfl
  · rename_i h
    rw [h]
    unfold histLen histAt
    simp only [Option.getD_none]
    by_cases h0 : e.histPtr < 0
    · rw [if_pos (Or.inl h0), if_neg (by omega)]
    · rw [if_pos (show 0 ≤ e.histPtr by omega)]
      by_cases h1 : e.histPtr ≥ (L.history.length : Int)
      · rw [if_pos (Or.inr h1), List.getElem?_eq_none (by omega)]; rfl
      · rw [if_neg (by omega), List.getD_eq_getElem?_getD]

/-- What one Up does. -/
theorem prevHist_spec (h0 : 0 ≤ e.histPtr) (h1 : e.histPtr ≤ L.history.length) :
    (up L.history.length L.historyCycling e.histPtr = e.histPtr ∧ prevHist L e = e) ∨
    (up L.history.length L.historyCycling e.histPtr ≠ e.histPtr ∧
      ∃ e1, (e1 = saveHist L e ∧ 0 < e.histPtr ∨
          e.histPtr = 0 ∧ e1 = saveHist L { e with histPtr := L.history.length + 1 }) ∧
        prevHist L e = showHist L { e1 with histPtr := up L.history.length L.historyCycling e.histPtr }) := by
  have hL : histLen L = L.history.length := rfl
  by_cases hl : (L.history.length : Int) ≤ 0
  · left
    refine ⟨by unfold up; rw [if_pos hl], ?_⟩
    unfold prevHist
    rw [if_pos (hL ▸ hl)]
  · by_cases hp : 0 < e.histPtr
    · right
      have hu : up L.history.length L.historyCycling e.histPtr = e.histPtr - 1 := by
        unfold up; rw [if_neg hl, if_pos hp]
      rw [hu]
      refine ⟨by omega, _, Or.inl ⟨rfl, hp⟩, ?_⟩
      unfold prevHist
      rw [if_neg (hL ▸ hl), if_neg (by omega)]
      dsimp only
      rw [if_neg (by omega), (saveHist_fields L e).2.2.2]
    · cases hc : L.historyCycling with
      | false =>
        left
        refine ⟨by unfold up; rw [if_neg hl, if_neg hp]; rfl, ?_⟩
        unfold prevHist
        rw [if_neg (hL ▸ hl), if_pos ⟨by omega, hc⟩]
      | true =>
        right
        have hu : up L.history.length true e.histPtr = L.history.length := by
          unfold up; rw [if_neg hl, if_neg hp]; rfl
        rw [hu]
        refine ⟨by omega, _, Or.inr ⟨by omega, rfl⟩, ?_⟩
        unfold prevHist
        rw [if_neg (hL ▸ hl), if_neg (by rw [hc]; simp)]
        dsimp only
        rw [if_pos (by omega), (saveHist_fields L _).2.2.2]
        simp [histLen]

/-- What one Down does. -/
theorem nextHist_spec (h0 : 0 ≤ e.histPtr) (h1 : e.histPtr ≤ L.history.length) :
    (down L.history.length e.histPtr = e.histPtr ∧ nextHist L e = e) ∨
    (down L.history.length e.histPtr = e.histPtr + 1 ∧
      nextHist L e = showHist L { saveHist L e with histPtr := e.histPtr + 1 }) := by
  by_cases hp : e.histPtr < L.history.length
  · right
    refine ⟨by unfold down; rw [if_pos hp], ?_⟩
    unfold nextHist
    rw [if_neg (by unfold histLen; omega), if_neg (by unfold histLen; omega)]
    dsimp only
    rw [(saveHist_fields L _).2.2.2]
  · left
    refine ⟨by unfold down; rw [if_neg hp], ?_⟩
    unfold nextHist
    split
    · rfl
    · rw [if_pos (by unfold histLen; omega)]

/-- A browsing command at the level of the editor without a screen. -/
theorem browse_spec {E : Env} {c : Cmd} {p : Int} {e : Ed} (h0 : 0 ≤ e.histPtr) (h1 : e.histPtr ≤ E.history.length)
    (hg : goes E c e.histPtr = some p) :
    (p = e.histPtr ∧ (Ed.call E.logic c e).1 = e) ∨
    (p ≠ e.histPtr ∧ ∃ e1, (e1 = saveHist E.logic e ∧ (c = .previousHistory → 0 < e.histPtr) ∨
        c = .previousHistory ∧ e.histPtr = 0 ∧ p = E.history.length ∧ e1 = saveHist E.logic { e with histPtr := E.history.length + 1 }) ∧
      (Ed.call E.logic c e).1 = showHist E.logic { e1 with histPtr := p }) := by
  cases c with
  | previousHistory =>
    simp only [goes, Option.some.injEq] at hg
    subst hg
    rcases prevHist_spec (L := E.logic) (e := e) h0 h1 with h | ⟨h, e1, h2, h3⟩
    · exact Or.inl h
    · right
      refine ⟨h, e1, ?_, h3⟩
      rcases h2 with ⟨a, b⟩ | ⟨a, b⟩
      · exact Or.inl ⟨a, fun _ => b⟩
      · refine Or.inr ⟨rfl, a, ?_, b⟩
        simp only [up] at h ⊢
        rw [a] at h ⊢
        simp only [if_neg (show ¬ (0:Int) < 0 by omega)] at h ⊢
        split at h
        · exact absurd rfl h
        · rename_i h5
          split at h
          · rename_i h6
            have h5' : ¬ (E.history.length : Int) ≤ 0 := h5
            have h6' : E.historyCycling = true := h6
            rw [if_neg h5', if_pos h6']
          · exact absurd rfl h
  | nextHistory =>
    simp only [goes, Option.some.injEq] at hg
    subst hg
    rcases nextHist_spec (L := E.logic) (e := e) h0 h1 with h | ⟨h2, h3⟩
    · exact Or.inl h
    · right
      have h2' : down E.history.length e.histPtr = e.histPtr + 1 := h2
      rw [h2']
      exact ⟨by omega, _, Or.inl ⟨rfl, nofun⟩, h3⟩
  | _ => cases hg

end Ed

/-- What is shown at a position: what was remembered, or the entry. -/
def Spec.shown (E : Env) (s : St) (p : Int) : Bytes := (s.modHist p).getD (entry E p)

theorem browse_leads {E : Env} {c : Cmd} {s s' : St} {rc : Result} {p : Int}
    (ho : Leads s' (Ed.call E.logic c s.ed).1) (hr : rc = (Ed.call E.logic c s.ed).2) (hg : goes E c s.histPtr = some p)
    (h0 : 0 ≤ s.histPtr) (h1 : s.histPtr ≤ E.history.length) :
    s'.histPtr = p ∧ rc = .cont ∧
    (p = s.histPtr → s'.units = s.units ∧ s'.cursor = s.cursor ∧ s'.modHist = s.modHist) ∧
    (p ≠ s.histPtr → At s' (unitsOf E.cfg (shown E s p)) []) := by
  have hrc : rc = .cont := by
    rw [hr]; cases c <;> first | rfl | cases hg
  rcases Ed.browse_spec (e := s.ed) h0 h1 hg with ⟨hp, he⟩ | ⟨hp, e1, he1, he⟩
  · rw [he] at ho
    have hp : p = s.histPtr := hp
    refine ⟨by rw [ho.histPtr, hp]; rfl, hrc, fun _ => ⟨?_, ho.cursor, ho.modHist⟩, fun hn => absurd hp hn⟩
    rw [ho.units, ← ed_units]
  · rw [he] at ho
    have hp : p ≠ s.histPtr := hp
    refine ⟨by rw [ho.histPtr, (Ed.showHist_histPtr _ _).1], hrc, fun hn => absurd hn hp, fun _ => ?_⟩
    have hl := Ed.showHist_line (L := E.logic) (e := { e1 with histPtr := p })
    have hat := ho.at (l := segs E.logic.cfg (Ed.getHist E.logic { e1 with histPtr := p })) (r := [])
      ⟨by rw [hl.1]; simp, hl.2⟩
    rw [segs_units] at hat
    have hsh : Ed.getHist E.logic { e1 with histPtr := p } = shown E s p := by
      rw [Ed.getHist_eq]
      unfold shown entry
      dsimp only
      congr 1
      rcases he1 with ⟨rfl, -⟩ | ⟨-, -, hpl, rfl⟩
      · exact Ed.saveHist_modHist hp
      · have : (Ed.saveHist E.logic { s.ed with histPtr := E.history.length + 1 }).modHist p =
            s.modHist p := Ed.saveHist_modHist (e := { s.ed with histPtr := E.history.length + 1 })
            (by show p ≠ (E.history.length : Int) + 1; omega)
        exact this
    rw [hsh] at hat
    exact hat

theorem C16 {E : Env} {c : Cmd} {s s' : St} {rc : Result} {p : Int}
    (h : Performs E c s s' rc) (hg : goes E c s.histPtr = some p)
    (h0 : 0 ≤ s.histPtr) (h1 : s.histPtr ≤ E.history.length) :
    s'.histPtr = p ∧ rc = .cont ∧
    (p = s.histPtr → s'.units = s.units ∧ s'.cursor = s.cursor ∧ s'.modHist = s.modHist) ∧
    (p ≠ s.histPtr → At s' (unitsOf E.cfg (shown E s p)) []) := by
  have hb : c.builtin = true := by cases c <;> first | rfl | cases hg
  obtain ⟨i, x, ho, hr⟩ := h.leads hb
  exact browse_leads (s := s.but i x) ho hr hg h0 h1

/-- A text without lone joiners at the wrong place is shown as it is. -/
theorem C16_text {C : Cfg} {cs : List Char} (h : Whole C cs) : (unitsOf C (utf8 cs)).flatten = utf8 cs := by
  rw [← segs_units, flatten_write]
  exact whole_text h

/-- The position stays in the history in every session, and only Up and Down change it. -/
theorem C16_range {E : Env} {w : World} {s : St} (hb : BuiltinKeys E) (h : Reachable E w s) :
    0 ≤ s.histPtr ∧ s.histPtr ≤ E.history.length := by
  induction h with
  | start h =>
    rw [(Obs.of_ed (startSt_ed h).1).histPtr]
    simp [Ed.start]
    constructor
    · exact Int.natCast_nonneg _
    · exact Int.le_refl _
  | @step s s' _ h ih =>
    rcases step_cases h with ⟨n, rest, hi⟩ | ⟨k, rest, hi⟩
    · rw [(resize_obs hi h).histPtr]; exact ih
    · rw [(step_obs hb hi h).1.histPtr]
      exact Ed.call_histOk E.logic _ { s.ed with input := rest } ih.1 ih.2

theorem C16_only {E : Env} {s s' : St} (hb : BuiltinKeys E) (h : step E s = .ok (s', none))
    (hp : s'.histPtr ≠ s.histPtr) :
    ∃ k rest, s.input = .key k :: rest ∧
      (lookupCommand E k = .previousHistory ∨ lookupCommand E k = .nextHistory) := by
  rcases step_cases h with ⟨n, rest, hi⟩ | ⟨k, rest, hi⟩
  · exact absurd (resize_obs hi h).histPtr hp
  · refine ⟨k, rest, hi, ?_⟩
    by_cases h1 : lookupCommand E k = .previousHistory
    · exact Or.inl h1
    · by_cases h2 : lookupCommand E k = .nextHistory
      · exact Or.inr h2
      · exfalso
        apply hp
        rw [(step_obs hb hi h).1.histPtr]
        exact (Ed.call_hist E.logic _ _ h1 h2).1

section
open Example
/-- Up, Up, Up (at the oldest entry), Down, Down; and cycling. -/
example :
    let E : Env := { env plain with history := [b "one", b "あ"] }
    let go (ks : List String) (n : Nat) := look (after E { input := keys (["x"] ++ ks) } (n + 1))
    [go ["\x10"] 1, go ["\x10", "\x10"] 2, go ["\x10", "\x10", "\x10"] 3, go ["\x10", "\x10", "\x0e"] 3,
     go ["\x10", "\x10", "\x0e", "\x0e"] 4] =
    [.inr ([b "あ"], 1, 0), .inr ([b "o", b "n", b "e"], 3, 0), .inr ([b "o", b "n", b "e"], 3, 0),
     .inr ([b "あ"], 1, 0), .inr ([b "x"], 1, 0)] := by decide +kernel
example :
    let E : Env := { env plain with history := [b "one"], historyCycling := true }
    look (after E { input := keys ["x", "\x10", "\x10"] } 3) = .inr ([b "x"], 1, 0) := by decide +kernel
end
end Readline
