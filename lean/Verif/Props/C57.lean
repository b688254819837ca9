import Verif.Proof.Plain
import Verif.Proof.Steady
/-!
# C57: no character comes from nowhere

`C57_result`: every code point of the text `ReadLine` returns comes from one of the texts it was
given (`Origin`): the default text, the history, the clipboard, a predictor, a completion command,
a typed key; or it is the quotation mark of `YankWithQuote`, or what becomes of a join control
(U+200D, U+FFFD).  `C57_states`: so do the code points of the line, of the clipboard and of the
prediction whenever a key is awaited.  `C57_over`: the same for any set of code points closed under
the sources.  `C57_refuted_whole`: if keys begin with a join control and are not whole characters and joining is enabled, two
keys can make a code point that neither contains.
-/
namespace Readline
open Spec

/-- Where a code point may come from. -/
inductive Spec.Origin (E : Env) (w : World) : Nat → Prop where
  | default {r} : r ∈ runesOf E.default → Origin E w r
  | history {r h} : h ∈ E.history → r ∈ runesOf h → Origin E w r
  | clip {r t} : w.clip = some t → r ∈ runesOf t → Origin E w r
  /-- a clipboard that gives back something it was not given -/
  | foreign {r c t u} : E.clipSet c t = some u → u ≠ t → c ≠ some u → r ∈ runesOf u → Origin E w r
  /-- a predictor of the program; the built-in one looks up the history -/
  | predictor {r f t} : E.predictor = some f → r ∈ runesOf (f E.history t) → Origin E w r
  | key {r k} : FromKey E w k → r ∈ runesOf (inserted k) → Origin E w r
  | completion {r q K texts pos t} : .key q ∈ w.input → lookupCommand E q = .completion K →
      completionOf K.uni K.completer K.postfix_ texts = .insert pos t → r ∈ runesOf t → Origin E w r
  | quote {q} : .key q ∈ w.input → lookupCommand E q = .yankWithQuote → Origin E w 0x22
  /-- a join control is written as U+200D, and U+FFFD is put behind one at the end (C05) -/
  | joiner {r} : E.cfg.zwjOk = true → Origin E w 0x200C ∨ Origin E w 0x200D → r = 0x200D ∨ r = 0xFFFD → Origin E w r

variable {E : Env} {w : World} {s : St}

theorem origin_sources (hk : WholeKeys E w) : Sources (Origin E w) E w where
  default _ hr := .default hr
  history _ hh _ hr := .history hh hr
  clip _ ht _ hr := .clip ht hr
  clipSet c t u hu := by
    by_cases h1 : u = t
    · exact Or.inl h1
    · by_cases h2 : c = some u
      · exact Or.inr (Or.inl h2)
      · exact Or.inr (Or.inr fun r hr => .foreign hu h1 h2 hr)
  predict _ hf _ _ _ _ hr := .predictor hf hr
  keys _ ht _ hr := .key ht hr
  completion _ _ hq hc _ _ _ hi _ hr := .completion hq hc hi hr
  quotes _ hq hc := .quote hq hc
  joined hz hj := ⟨.joiner hz hj (Or.inl rfl), .joiner hz hj (Or.inr rfl)⟩
  whole := hk

/-- Any set of code points that contains those of the sources contains those of the line, the
clipboard and the prediction, and of the result. -/
theorem C57_over {P : Nat → Prop} (hb : BuiltinKeys E) (hs : Sources P E w) :
    (∀ s, Reachable E w s → Over P s.text ∧ (∀ u ∈ s.units, Over P u) ∧ (∀ t, s.clip = some t → Over P t) ∧
      Over P (lineText s.suffixList)) ∧
    ∀ p, readLine E w = .ok p → Over P p.2.text ∧ ∀ t, p.1.clip = some t → Over P t := by
  refine ⟨fun s h => ?_, fun p h => ?_⟩
  · have hf := reachable_from hb hs h
    have ht : s.ed.text = s.text := by rw [St.text_units, St.units_eq, ← lineText_units]; rfl
    refine ⟨ht ▸ hf.text, fun u hu => ?_, hf.clip, hf.suffix⟩
    rw [St.units_eq] at hu
    obtain ⟨m, hm, rfl⟩ := List.mem_map.mp hu
    exact hf.line m hm
  · obtain ⟨h1, h2⟩ := result_from hb hs h
    exact ⟨h1, h2.clip⟩

/-- Every code point of the line, the clipboard and the prediction comes from somewhere. -/
theorem C57_states (hb : BuiltinKeys E) (hk : WholeKeys E w) (h : Reachable E w s) :
    (∀ r ∈ runesOf s.text, Origin E w r) ∧ (∀ t, s.clip = some t → ∀ r ∈ runesOf t, Origin E w r) ∧
      ∀ r ∈ runesOf (lineText s.suffixList), Origin E w r := by
  obtain ⟨h1, _, h3, h4⟩ := (C57_over hb (origin_sources hk)).1 s h
  exact ⟨h1, h3, h4⟩

/-- Every code point of the returned text comes from somewhere. -/
theorem C57_result (hb : BuiltinKeys E) (hk : WholeKeys E w) {p : St × RLRes} (h : readLine E w = .ok p) :
    ∀ r ∈ runesOf p.2.text, Origin E w r :=
  ((C57_over hb (origin_sources hk)).2 p h).1

/-! ## Cases -/

open Example

/-- A default text, a history, a clipboard and keys. -/
def Example.originEnv : Env := { env full with history := [b "ls é"], default := b "d" }

def Example.originTyped : World where
  termWidth := 40
  clip := some (b "ä x")
  input := keys ["k", "👩", "\u200D", "👧", "\x19", "\r"]

/-- FromKey keys, joined units and the clipboard end up in the result. -/
example : outcome (readLine originEnv originTyped) = .inr (b "k👩\u200D👧ä xd", .nil) := by decide +kernel

/-- The keys of the session are valid UTF-8. -/
example : WholeKeys originEnv originTyped := by
  intro _ k hk hj
  have hm := env_typed rfl rfl hk
  simp only [originTyped, keys, List.map_cons, List.map_nil, List.mem_cons, Ev.key.injEq, List.not_mem_nil, or_false] at hm
  rcases hm with rfl | rfl | rfl | rfl | rfl | rfl
  · exact absurd hj (by decide +kernel)
  · exact absurd hj (by decide +kernel)
  · exact ⟨['\u200D'], by decide +kernel⟩
  · exact absurd hj (by decide +kernel)
  · exact absurd hj (by decide +kernel)
  · exact absurd hj (by decide +kernel)

/-- `a`, a join control followed by the first two bytes of U+3042, the third byte, Enter. -/
def Example.cutKeys : World where
  termWidth := 40
  input := [.key (b "a"), .key (b "\u200D" ++ [0xE3, 0x81]), .key [0x82], .key (b "\r")]

/-- Without the condition on the keys U+3042 is made from two keys that do not contain it. -/
theorem C57_refuted_whole : outcome (readLine (env full) cutKeys) = .inr (b "a\u200D\u3042", .nil) ∧
    0x3042 ∈ runesOf (b "a\u200D\u3042") ∧ ¬ Origin (env full) cutKeys 0x3042 := by
  refine ⟨by decide +kernel, by decide +kernel, fun h => ?_⟩
  cases h with
  | default hr => exact absurd hr (by decide +kernel)
  | history hh _ => cases hh
  | clip hc _ => cases hc
  | foreign hc h1 _ _ =>
    injection hc with hc
    exact h1 hc.symm
  | predictor hp _ => cases hp
  | key hk hr =>
    have hm := env_typed rfl rfl hk
    simp only [cutKeys, List.mem_cons, Ev.key.injEq, List.not_mem_nil, or_false] at hm
    rcases hm with rfl | rfl | rfl | rfl <;> exact absurd hr (by decide +kernel)
  | @completion _ q _ _ _ _ hq hc _ _ =>
    have hx : (match lookupCommand (env full) q with | .completion _ => true | _ => false) = true := by rw [hc]
    simp only [cutKeys, List.mem_cons, Ev.key.injEq, List.not_mem_nil, or_false] at hq
    rcases hq with rfl | rfl | rfl | rfl <;> exact absurd hx (by decide +kernel)
  | joiner _ _ hr => exact absurd hr (by decide)

end Readline
