import Verif.Props.C12
import Verif.Props.C18
/-!
# C40: quoted insert is literal

`C40_partial`: the key after QuotedInsert is inserted as text whatever it is bound to, unless it is
ESC and one more byte (`C40_refuted_alt`: only the byte is inserted) or attaches to the character
before the cursor or to a waiting joiner (then it becomes part of that character, see C43).
`C40_control`: in particular every control character becomes a unit of its own.
-/
namespace Readline
open Spec

theorem type_chars {L : Logic} {e : Ed} {l r : List Moji} {cs : List Char} (h : e.At l r)
    (hne : cs ≠ []) (ha : ∀ c : Char, c.toNat < 128 → cs ≠ ['\x1b', c])
    (hj : l = [] ∨ ¬ StartsJoins L.cfg cs) (hp : e.pending = []) :
    Ed.At (Ed.type L e (utf8 cs)) (l ++ segs L.cfg (utf8 cs)) r := by
  have hs : stripAlt (utf8 cs) = utf8 cs := stripAlt_utf8 ha
  have hcur : decide (e.cursor > 0) = true → ¬ StartsJoins L.cfg cs := by
    intro hc
    rcases hj with rfl | hj
    · rw [h.cursor] at hc; simp at hc
    · exact hj
  have hfalse := fun hn => attaches_utf8 (C := L.cfg) hne hn
  have hgo : Ed.type L e (utf8 cs) = Ed.typeTail L e (utf8 cs) := by
    unfold Ed.type
    dsimp only
    rw [hs, if_neg, if_neg, if_neg (by rw [hp]; simp)]
    · intro hx
      rw [Bool.and_eq_true] at hx
      have := (hfalse (hcur hx.2)).1
      rw [this] at hx
      cases hx.1
    · intro hx
      rw [Bool.and_eq_true] at hx
      have := (hfalse (hcur hx.2)).2
      rw [this] at hx
      cases hx.1
  rw [hgo]
  exact Ed.At.typeTail h

theorem Ed.type_input (L : Logic) (e : Ed) (k : Bytes) : (Ed.type L e k).input = e.input := by
  have hd : ∀ (e : Ed) p n, (e.delete p n).input = e.input := by
    intro e p n; unfold Ed.delete; split <;> rfl
  have hbs : ∀ e : Ed, (Ed.backspace L e).input = e.input := by
    intro e; unfold Ed.backspace; split <;> simp [hd]
  have ht : ∀ (e : Ed) t, (Ed.typeTail L e t).input = e.input := by
    intro e t; unfold Ed.typeTail; simp [Ed.insert]
  unfold Ed.type
  dsimp only
  split
  · rw [hbs]
  · split
    · rw [ht, hbs]
    · split <;> rw [ht]

theorem unitsOf_char (C : Cfg) (c : Char) : unitsOf C (utf8 [c]) = [utf8 [c]] := by
  rw [← segs_units]
  obtain ⟨m, hm⟩ := List.length_eq_one_iff.mp (segs_char C c)
  rw [hm]
  have hw : lineText (segs C (utf8 [c])) = utf8 [c] := by
    rw [segs_text, runesOf_utf8, utf8_eq_encodeRunes]
    rfl
  rw [hm, lineText_units] at hw
  simpa using hw

/-- The key `x` that follows QuotedInsert is inserted. -/
theorem C40_partial {E : Env} {s s' : St} {k : Bytes} {x : List Char} {evs rest : List Ev}
    {l r : List Bytes} (hb : BuiltinKeys E)
    (hin : s.input = .key k :: (evs ++ .key (utf8 x) :: rest)) (hres : resizesIn evs = evs)
    (hk : lookupCommand E k = .quotedInsert) (hat : At s l r) (hp : s.pending = []) (hne : x ≠ [])
    (ha : ∀ c : Char, c.toNat < 128 → x ≠ ['\x1b', c]) (hj : l = [] ∨ ¬ StartsJoins E.cfg x)
    (h : step E s = .ok (s', none)) :
    At s' (l ++ unitsOf E.cfg (utf8 x)) r ∧ s'.input = evs ++ rest := by
  obtain ⟨ml, mr, hml, rfl, rfl⟩ := hat.ed
  have ho := (step_obs hb hin h).1
  rw [hk] at ho
  have hg : Ed.getKey { s.ed with input := evs ++ .key (utf8 x) :: rest } =
      (some (utf8 x), { s.ed with input := evs ++ rest }) := by
    unfold Ed.getKey
    dsimp only
    rw [popKey_resizes hres, popKey_key]
    rfl
  simp only [Ed.call] at ho
  rw [hg] at ho
  dsimp only at ho
  have hty : Ed.At (Ed.type E.logic { s.ed with input := evs ++ rest } (utf8 x))
      (ml ++ segs E.logic.cfg (utf8 x)) mr :=
    type_chars ⟨hml.line, hml.cursor⟩ hne ha
      (by rcases hj with hj | hj
          · left; simpa using hj
          · right; exact hj) hp
  refine ⟨?_, ho.input.trans (Ed.type_input _ _ _)⟩
  have := ho.at hty
  rw [List.map_append, segs_units] at this
  exact this

/-- Every control character, ESC, Enter and Ctrl-C included, becomes a unit. -/
theorem C40_control {E : Env} {s s' : St} {k : Bytes} {c : Char} {evs rest : List Ev}
    {l r : List Bytes} (hb : BuiltinKeys E) (hc : c.toNat < 0x20 ∨ c.toNat = 0x7F)
    (hv : E.cfg.varSel c.toNat = false)
    (hin : s.input = .key k :: (evs ++ .key (utf8 [c]) :: rest)) (hres : resizesIn evs = evs)
    (hk : lookupCommand E k = .quotedInsert) (hat : At s l r) (hp : s.pending = [])
    (h : step E s = .ok (s', none)) : At s' (l ++ [utf8 [c]]) r := by
  have := (C40_partial hb hin hres hk hat hp (by simp) (by simp) (Or.inr ?_) h).1
  · rwa [unitsOf_char] at this
  · rintro ⟨d, hd, hj⟩
    simp at hd
    subst hd
    rcases hj with ⟨-, hj⟩ | ⟨-, hj⟩ | ⟨-, hj⟩
    · omega
    · rw [hv] at hj; cases hj
    · omega

section
open Example
/-- Ctrl-V is QuotedInsert: Enter, Ctrl-C and an arrow key become text. -/
example :
    let w : World := { input := keys ["a", "\x16", "\x0d", "\x16", "\x03", "\x16", "\x1b[A"] }
    [look (after (env plain) w 2), look (after (env plain) w 3), look (after (env plain) w 4)] =
    [.inr ([b "a", b "\x0d"], 2, 0), .inr ([b "a", b "\x0d", b "\x03"], 3, 0),
     .inr ([b "a", b "\x0d", b "\x03", b "\x1b", b "[", b "A"], 6, 0)] := by decide +kernel

/-- Alt-x loses its ESC. -/
theorem C40_refuted_alt :
    look (after (env plain) { input := keys ["\x16", "\x1bx"] } 1) = .inr ([b "x"], 1, 0) := by
  decide +kernel
end
end Readline
