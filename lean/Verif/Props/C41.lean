import Verif.Proof.Quote
import Verif.Proof.Word
import Verif.Props.C40
/-!
# C41: YankWithQuote quotes reversibly

`C41_quoted`: a clipboard text with a blank that does not start with a quotation mark is inserted
line by line in quotation marks, inner marks doubled, and un-quoting gives every line back.
`C41_plain`: any other text is inserted as it is.  `C41_oneLine`: for one-line text that the
terminal cuts without loss, the text between the old halves of the line un-quotes to the clipboard.
-/
namespace Readline
open Spec

theorem yank_quote_at {E : Env} {s s' : St} {k : Bytes} {rest : List Ev} {l r : List Bytes} {t : Bytes}
    (hb : BuiltinKeys E) (hin : s.input = .key k :: rest) (hk : lookupCommand E k = .yankWithQuote)
    (hat : At s l r) (hc : s.clip = some t) (h : step E s = .ok (s', none)) :
    At s' (l ++ unitsOf E.cfg (quoteText t)) r := by
  obtain ⟨ml, mr, hml, rfl, rfl⟩ := hat.ed
  have ho := (step_obs hb hin h).1
  rw [hk] at ho
  have hcur : s.ed.cursor = ml.length := hml.cursor
  have h2 : Ed.At (Ed.call E.logic .yankWithQuote { s.ed with input := rest }).1
      (ml ++ segs E.logic.cfg (quoteText t)) mr := by
    simp only [Ed.call]
    have hc' : s.ed.clip = some t := hc
    rw [hc']
    dsimp only
    rw [hcur]
    apply Ed.At.replace (m := [])
    rw [List.append_nil]
    exact ⟨hml.line, rfl⟩
  have := ho.at h2
  rw [List.map_append, segs_units] at this
  exact this

theorem C41_quoted {E : Env} {s s' : St} {k : Bytes} {rest : List Ev} {l r : List Bytes} {t : Bytes}
    (hb : BuiltinKeys E) (hin : s.input = .key k :: rest) (hk : lookupCommand E k = .yankWithQuote)
    (hat : At s l r) (hc : s.clip = some t) (hbl : 0x20 ∈ t) (hq : t.head? ≠ some 0x22)
    (h : step E s = .ok (s', none)) :
    ∃ ls, (∀ x ∈ ls, OneLine x) ∧ joinLines ls = t ∧
      At s' (l ++ unitsOf E.cfg (joinLines (ls.map quoteLine))) r ∧
      (ls.map quoteLine).map unquoteLine = ls := by
  obtain ⟨ls, hne, hls, rfl⟩ := exists_lines t
  refine ⟨ls, hls, rfl, ?_, ?_⟩
  · rw [← quoteText_lines ls hls hne hbl hq]
    exact yank_quote_at hb hin hk hat hc h
  · rw [List.map_map]
    have : unquoteLine ∘ quoteLine = id := by funext x; exact unquote_quoteLine x
    rw [this, List.map_id]

theorem C41_plain {E : Env} {s s' : St} {k : Bytes} {rest : List Ev} {l r : List Bytes} {t : Bytes}
    (hb : BuiltinKeys E) (hin : s.input = .key k :: rest) (hk : lookupCommand E k = .yankWithQuote)
    (hat : At s l r) (hc : s.clip = some t) (hno : 0x20 ∉ t ∨ t.head? = some 0x22)
    (h : step E s = .ok (s', none)) : At s' (l ++ unitsOf E.cfg t) r := by
  have : quoteText t = t := by
    unfold quoteText
    rw [if_neg]
    intro hx
    simp only [Bool.and_eq_true, Bool.not_eq_true'] at hx
    rcases hno with hno | hno
    · exact hno (by simpa using hx.1)
    · cases t with
      | nil => simp at hno
      | cons a t =>
        simp at hno
        subst hno
        simp [List.isPrefixOf] at hx
  have h2 := yank_quote_at hb hin hk hat hc h
  rwa [this] at h2

/-- quoting of characters -/
def quoteChars (cs : List Char) : List Char :=
  ['"'] ++ cs.flatMap (fun c => if c = '"' then ['"', '"'] else [c]) ++ ['"']

theorem quoteLine_utf8 (cs : List Char) : quoteLine (utf8 cs) = utf8 (quoteChars cs) := by
  have hq : utf8 ['"'] = [0x22] := by decide
  have : doubleQuotes (utf8 cs) = utf8 (cs.flatMap (fun c => if c = '"' then ['"', '"'] else [c])) := by
    induction cs with
    | nil => rfl
    | cons c cs ih =>
      have hc : utf8 (c :: cs) = utf8 [c] ++ utf8 cs := by rw [← utf8_append]; rfl
      rw [hc, doubleQuotes_append, ih, List.flatMap_cons, utf8_append]
      congr 1
      split
      · rename_i he; subst he; decide
      · rename_i he
        have hmem : (0x22 : UInt8) ∉ utf8 [c] := by
          intro hm
          rw [utf8_single] at hm
          exact he (Char.toNat_inj.mp (mem_encodeRune_ascii (by decide) hm))
        unfold doubleQuotes
        generalize utf8 [c] = t at hmem
        induction t with
        | nil => rfl
        | cons x t ih =>
          simp only [List.mem_cons, not_or] at hmem
          rw [List.flatMap_cons, if_neg (fun h => hmem.1 h.symm), ih hmem.2]
          rfl
  unfold quoteLine quoteChars
  rw [this, utf8_append, utf8_append, hq]

theorem C41_oneLine {E : Env} {s s' : St} {k : Bytes} {rest : List Ev} {l r : List Bytes} {cs : List Char}
    (hb : BuiltinKeys E) (hin : s.input = .key k :: rest) (hk : lookupCommand E k = .yankWithQuote)
    (hat : At s l r) (hc : s.clip = some (utf8 cs)) (hbl : ' ' ∈ cs) (hq : cs.head? ≠ some '"')
    (hone : OneLine (utf8 cs)) (hz : E.cfg.zwjOk = true → '‌' ∉ cs) (h : step E s = .ok (s', none)) :
    ∃ t, s'.text = l.flatten ++ t ++ r.flatten ∧ unquoteLine t = utf8 cs := by
  have hmem : ∀ {c : Char} {cs : List Char}, c ∈ cs → ∀ x ∈ utf8 [c], x ∈ utf8 cs := by
    intro c cs hc x hx
    unfold utf8 at hx ⊢
    rw [List.mem_flatMap] at hx ⊢
    obtain ⟨d, hd, hx⟩ := hx
    rw [List.mem_singleton] at hd
    exact ⟨c, hc, hd ▸ hx⟩
  have h1 := yank_quote_at hb hin hk hat hc h
  have h20 : (0x20 : UInt8) ∈ utf8 cs := hmem hbl _ (by decide)
  have hhead : (utf8 cs).head? ≠ some 0x22 := by
    intro hx
    cases cs with
    | nil => cases hbl
    | cons c cs =>
      have h2 : (0x22 : UInt8) ∈ encodeRune c.toNat := by
        have h3 : utf8 (c :: cs) = encodeRune c.toNat ++ utf8 cs := by
          rw [← utf8_single, ← utf8_append]; rfl
        rw [h3] at hx
        have hne := encodeRune_ne_nil c.toNat
        cases he : encodeRune c.toNat with
        | nil => exact absurd he hne
        | cons a t => rw [he] at hx; simp at hx; simp [hx]
      exact hq (by rw [List.head?_cons]; congr 1; exact Char.toNat_inj.mp (mem_encodeRune_ascii (by decide) h2))
  have h2 := quoteText_lines [utf8 cs] (by simpa using hone) (by simp) h20 hhead
  have h3 : quoteText (utf8 cs) = utf8 (quoteChars cs) := by rw [← quoteLine_utf8]; exact h2
  have hw : Whole E.cfg (quoteChars cs) := by
    by_cases hzw : E.cfg.zwjOk = true
    · right
      refine ⟨?_, ?_⟩
      · intro hx
        unfold quoteChars at hx
        simp only [List.mem_append, List.mem_singleton, List.mem_flatMap] at hx
        rcases hx with (hx | ⟨c, hc, hx⟩) | hx
        · revert hx; decide
        · split at hx
          · revert hx; decide
          · rw [List.mem_singleton] at hx
            subst hx
            exact hz hzw hc
        · revert hx; decide
      · unfold quoteChars
        rw [List.getLast?_concat]
        decide
    · left; simpa using hzw
  refine ⟨utf8 (quoteChars cs), ?_, by rw [← quoteLine_utf8, unquote_quoteLine]⟩
  rw [h1.text, List.flatten_append, h3, ← segs_units, ← lineText_units, whole_text hw]

section
open Example
/-- `a "b" c` is inserted as `"a ""b"" c"`, two lines as two quoted lines, `"a b` and `ab` as they
are. -/
example :
    let run (t : String) := look (after (env plain) { clip := some (b t), input := keys ["x", "\x02", "\x1by"] } 3)
    let cut (t : String) (n : Int) : PanicKind ⊕ (List Bytes × Int × Int) := .inr ((b t).map ([·]) ++ [b "x"], n, 0)
    [run "a \"b\" c", run "a b\r\nc", run "\"a b", run "ab"] =
    [cut "\"a \"\"b\"\" c\"" 11, cut "\"a b\"\r\n\"c\"" 10, cut "\"a b" 4, cut "ab" 2] := by
  decide +kernel
end
end Readline
