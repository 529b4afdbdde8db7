import Verif.Model.Stringer
import Verif.Props.Funcs
import Verif.Props.LexerExact

/-!
# C52: printing a semantic function and reading it again
-/

namespace Fmr

/-- What is printed for `f` is read as `f`, whatever follows (white space after it is skipped). -/
def RoundTrips (w : LexWorld) (p : StrWorld) (f : FMR) : Prop :=
  ∀ r, runeError ∉ r → (∀ c, r.head? = some c → w.isSpace c = false) →
    ∀ fuel, (f.string p ++ r).length < fuel →
    ∃ s, semanticFn w (f.string p ++ r) fuel fuel pst0 = .ok (f, s) ∧ (f.string p ++ r).drop s.pos = r

/-- `big.Int` reads what it prints (proved of the model of `fmt.Sscan`, `goScanInt_toString`) -/
def IntsOK (w : LexWorld) : Prop := ∀ i : Int, w.scanInt (toString i) = some i

/-- C52: every semantic function that can be written in a grammar is printed as a text that is read as that
function. False of the code, see `C52_false`. -/
def C52_statement : Prop :=
  ∀ (w : LexWorld) (p : StrWorld), w.OK → IntsOK w → ∀ f, FmrOK w f → RoundTrips w p f

section
variable (w : LexWorld) (p : StrWorld)

/-- Strings that survive: `strconv.Quote` writes only escapes that the grammar knows, and the text does not
start with white space or the parenthesis of flags. -/
def StrBack (v : List Char) : Prop :=
  (∀ c ∈ v, c ≠ runeError ∧ (p.isPrint c = true ∨ c ∈ ['\n', '\t', '"', '\\'])) ∧
    ∀ c, v.head? = some c → c ≠ '(' ∧ (p.isPrint c = true → w.isSpace c = false)

mutual
/-- the semantic functions that survive printing and reading -/
inductive FmrBack : FMR → Prop
  | mk {x : List Char} {a : Arg} {as : List Arg} : FnName w x → ArgBack a → ArgsBack as →
      FmrBack (.mk (String.ofList x) (a :: as))
inductive ArgsBack : List Arg → Prop
  | nil : ArgsBack []
  | cons {a : Arg} {as : List Arg} : ArgBack a → ArgsBack as → ArgsBack (a :: as)
inductive ArgBack : Arg → Prop
  | index {n : Nat} : n < 2 ^ 63 → ArgBack (.mk "index" (.int n))
  | string {v : List Char} : StrBack w p v → ArgBack (.mk "string" (.str (String.ofList v)))
  | int {i : Int} : w.scanInt (toString i) = some i → ArgBack (.mk "int" (.bigInt i))
  | float {q : Rat} : Numeral w true (p.floatStr q) → w.scanFloat (p.floatStr q) = some q →
      ArgBack (.mk "float" (.bigFloat q))
  | func {f : FMR} : FmrBack f → ArgBack (.mk "func" (.fmr f))
end
end

section
variable {w : LexWorld} {p : StrWorld}

theorem escape_lit {v : List Char}
    (h : ∀ c ∈ v, c ≠ runeError ∧ (p.isPrint c = true ∨ c ∈ ['\n', '\t', '"', '\\'])) :
    LitText ((v.map GoRune.rune).flatMap (escapeGo p.isPrint)) v ∧
      runeError ∉ (v.map GoRune.rune).flatMap (escapeGo p.isPrint) := by
  induction v with
  | nil => exact ⟨.nil, by simp⟩
  | cons c v ih =>
    obtain ⟨ih1, ih2⟩ := ih (fun d hd => h d (List.mem_cons_of_mem _ hd))
    obtain ⟨hg, hc⟩ := h c (by simp)
    rw [List.map_cons, List.flatMap_cons, escapeGo, escapeRune, List.mem_append, not_or]
    by_cases hq : c = '"' ∨ c = '\\'
    · rw [if_pos hq]
      refine ⟨?_, ?_, ih2⟩
      · rcases hq with rfl | rfl
        · exact .esc (by simp) ih1
        · exact .esc (by simp) ih1
      · rcases hq with rfl | rfl <;> decide
    · rw [if_neg hq]
      rw [not_or] at hq
      by_cases hp : p.isPrint c = true
      · rw [if_pos hp]
        refine ⟨.plain hq.1 hq.2 ih1, ?_, ih2⟩
        simpa using fun e => hg e.symm
      · rw [if_neg hp]
        rcases hc with hc | hc
        · exact absurd hc hp
        · simp only [List.mem_cons, List.not_mem_nil, or_false, hq.1, hq.2] at hc
          rcases hc with rfl | rfl
          · exact ⟨.esc (by simp) ih1, by decide, ih2⟩
          · exact ⟨.esc (by simp) ih1, by decide, ih2⟩

theorem escape_head {v : List Char} {d : Char} (hw : w.OK)
    (h : ∀ c, v.head? = some c → c ≠ '(' ∧ (p.isPrint c = true → w.isSpace c = false))
    (hd : ((v.map GoRune.rune).flatMap (escapeGo p.isPrint)).head? = some d) : w.isSpace d = false ∧ d ≠ '(' := by
  cases v with
  | nil => simp at hd
  | cons c v =>
    have hb : w.isSpace '\\' = false := (hw.punct '\\' (by simp)).2.2
    obtain ⟨h1, h2⟩ := h c rfl
    rw [List.map_cons, List.flatMap_cons, escapeGo, escapeRune] at hd
    split at hd
    · simp only [List.cons_append, List.head?_cons, Option.some.injEq] at hd
      subst hd
      exact ⟨hb, by decide⟩
    split at hd
    · rename_i hp
      simp only [List.cons_append, List.head?_cons, Option.some.injEq] at hd
      subst hd
      exact ⟨h2 hp, h1⟩
    repeat' split at hd
    all_goals
      simp only [List.cons_append, List.head?_cons, Option.some.injEq] at hd
      subst hd
      exact ⟨hb, by decide⟩

theorem digits_tok (hw : w.OK) (n : Nat) : NumTok w (Nat.toDigits 10 n) false ∧
    (Nat.toDigits 10 n).head? ≠ some '.' := by
  have hd : ∀ c ∈ Nat.toDigits 10 n, '0' ≤ c ∧ c ≤ '9' := by
    intro c hc
    have := digit_toDigits hc
    simpa [Char.isDigit, Char.le_def, UInt32.le_iff_toNat_le] using this
  have hdot : '.' ∉ Nat.toDigits 10 n := fun hm => absurd (hd _ hm) (by decide)
  refine ⟨⟨Nat.toDigits_ne_nil, fun c hc => .inl (hw.digits c (hd c hc).1 (hd c hc).2), ?_⟩, fun h => ?_⟩
  · simpa [List.count_eq_zero] using hdot
  · exact hdot (List.mem_of_head? h)

mutual
/-- the text printed is a text of the function -/
theorem back_fmr (hw : w.OK) : ∀ {f : FMR}, FmrBack w p f →
    FmrSyn w (f.string p) f ∧ runeError ∉ f.string p
  | _, .mk (x := x) (a := a) (as := as) hx ha has => by
    obtain ⟨t, h1, h2, h3⟩ := back_arg hw ha
    obtain ⟨l, h4, h5⟩ := back_args hw has
    obtain ⟨h6, h7⟩ := h5 h2 h3
    have e : FMR.string p (.mk (String.ofList x) (a :: as)) =
        [] ++ (x ++ ([] ++ '(' :: ((joinComma (t :: l) ++ [')']) ++ []))) := by
      rw [FMR.string, argStrings, h1]
      simp only [h4, String.toList_ofList, List.nil_append, List.append_nil]
    rw [e]
    have hn : Spaces w [] := by simp [Spaces]
    refine ⟨.mk hn hx hn h6 hn, ?_⟩
    simp only [List.nil_append, List.append_nil, List.mem_append, List.mem_cons, not_or]
    simp only [List.mem_append, List.mem_cons, not_or] at h7
    exact ⟨hx.good hw, by decide, h7⟩
theorem back_args (hw : w.OK) : ∀ {as : List Arg}, ArgsBack w p as → ∃ l, argStrings p as = some l ∧
    ∀ {a : Arg} {t : List Char}, ArgSyn w t a → runeError ∉ t →
      ArgsSyn w (joinComma (t :: l) ++ [')']) (a :: as) ∧ runeError ∉ joinComma (t :: l) ++ [')']
  | _, .nil => by
    refine ⟨[], rfl, fun {a t} h1 h2 => ⟨?_, ?_⟩⟩
    · exact ArgsSyn.last (s := []) (s' := []) (by simp [Spaces]) h1 (by simp [Spaces])
    · rw [joinComma, List.mem_append, not_or]
      exact ⟨h2, by decide⟩
  | _, .cons hb hbs => by
    obtain ⟨t', h1, h2, h3⟩ := back_arg hw hb
    obtain ⟨l, h4, h5⟩ := back_args hw hbs
    obtain ⟨h6, h7⟩ := h5 h2 h3
    refine ⟨t' :: l, ?_, fun {a t} g1 g2 => ⟨?_, ?_⟩⟩
    · rw [argStrings, h1]; simp only [h4]
    · have := ArgsSyn.more (s := []) (s' := []) (by simp [Spaces]) g1 (by simp [Spaces]) h6
      simpa [joinComma] using this
    · rw [joinComma]
      simp only [List.mem_append, List.mem_cons, not_or] at h7 ⊢
      exact ⟨⟨g2, by decide, h7.1⟩, h7.2⟩
theorem back_arg (hw : w.OK) : ∀ {a : Arg}, ArgBack w p a → ∃ t, argString p a = some t ∧ ArgSyn w t a ∧ runeError ∉ t
  | _, .index (n := n) hn => by
    obtain ⟨h1, h2⟩ := digits_num hn
    refine ⟨_, rfl, ?_, ?_⟩
    · rw [int_toList, if_pos (by omega), Int.toNat_natCast]
      exact .index h2
    · rw [int_toList, if_pos (by omega), Int.toNat_natCast, List.mem_cons, not_or]
      exact ⟨by decide, h1⟩
  | _, .string (v := v) hv => by
    obtain ⟨h1, h2⟩ := escape_lit hv.1
    refine ⟨_, rfl, ?_, ?_⟩
    · rw [quoteStr, String.toList_ofList, quoteRunes, String.toList_ofList]
      exact .string (LitSyn.plain (s := []) (by simp [Spaces]) h1 (fun c hc => escape_head hw hv.2 hc))
    · rw [quoteStr, String.toList_ofList, quoteRunes, String.toList_ofList, List.mem_cons, List.mem_append, not_or, not_or]
      exact ⟨by decide, h2, by decide⟩
  | _, .int (i := i) hi => by
    refine ⟨_, rfl, ?_, ?_⟩
    · by_cases h : 0 ≤ i
      · obtain ⟨h1, h2⟩ := digits_tok hw i.toNat
        rw [int_toList, if_pos h]
        refine .int h1 h2 ?_
        rw [← hi, ← String.ofList_toList (s := toString i), int_toList, if_pos h]
      · obtain ⟨h1, h2⟩ := digits_tok hw (-i).toNat
        rw [int_toList, if_neg h]
        refine .negInt h1 ?_
        rw [← hi, ← String.ofList_toList (s := toString i), int_toList, if_neg h]
    · intro hm
      rcases int_chars hm with h | h
      · exact absurd h (by decide)
      · exact absurd h (by decide)
  | _, .float (q := q) hnum hs => by
    obtain ⟨d, ⟨e, hd⟩ | e, ht⟩ := hnum
    · refine ⟨_, rfl, ?_, ?_⟩
      · rw [e, String.toList_ofList]
        rw [e] at hs
        exact .float ht hd hs
      · rw [e, String.toList_ofList]
        exact ht.good hw
    · refine ⟨_, rfl, ?_, ?_⟩
      · rw [e, String.toList_ofList]
        rw [e] at hs
        exact .negFloat ht hs
      · rw [e, String.toList_ofList, List.mem_cons, not_or]
        exact ⟨by decide, ht.good hw⟩
  | _, .func hf => by
    obtain ⟨h1, h2⟩ := back_fmr hw hf
    exact ⟨_, rfl, .func h1, h2⟩
end

/-- A text of a function is read as that function. -/
theorem roundTrips_of_syntax (hw : w.OK) {f : FMR} (h : FmrSyn w (f.string p) f) (hg : runeError ∉ f.string p) :
    RoundTrips w p f := by
  intro r hr hsp fuel hfuel
  have hgi : runeError ∉ f.string p ++ r := by
    rw [List.mem_append, not_or]; exact ⟨hg, hr⟩
  have := (reads_fmr_args (inp := f.string p ++ r) (ρ := []) hgi hw (f.string p).length).1 (r := r)
    (n0 := fuel) (n := fuel) (Nat.le_refl _) h
    (by rw [List.length_append] at hfuel; omega) hfuel
  obtain ⟨s, e, hs⟩ := this pst0 ⟨rfl, rfl⟩
  refine ⟨s, e, ?_⟩
  rw [hs.1]
  cases r with
  | nil => rfl
  | cons c r => rw [List.dropWhile_cons_of_neg]; rw [hsp c rfl]; decide

/-- C52 for the functions without context arguments whose strings and floats survive. Missing: see the
witnesses below, for which the full statement fails. -/
theorem C52_partial (hw : w.OK) {f : FMR} (h : FmrBack w p f) : RoundTrips w p f := by
  obtain ⟨h1, h2⟩ := back_fmr hw h
  exact roundTrips_of_syntax hw h1 h2

/-- Two such functions that are printed the same are the same. -/
theorem C52_injective (hw : w.OK) {f g : FMR} (hf : FmrBack w p f) (hg : FmrBack w p g)
    (h : f.string p = g.string p) : f = g := by
  obtain ⟨s, e, -⟩ := C52_partial hw hf [] (by simp) (by simp) _ (Nat.lt_succ_self _)
  obtain ⟨s', e', -⟩ := C52_partial hw hg [] (by simp) (by simp) _ (Nat.lt_succ_self _)
  rw [h, e'] at e
  simp only [Out.ok.injEq, Prod.mk.injEq] at e
  exact e.1.symm

/-- A function with an argument of an unknown type or with a value of the wrong type is printed as
`invalid_fmr`. -/
theorem C52_invalid {fn : String} {args : List Arg} (h : ∃ a ∈ args, argString p a = none) :
    FMR.string p (.mk fn args) = "invalid_fmr".toList := by
  have : argStrings p args = none := by
    obtain ⟨a, ha, hn⟩ := h
    induction args with
    | nil => cases ha
    | cons b bs ih =>
      rw [argStrings]
      rcases List.mem_cons.mp ha with rfl | ha
      · rw [hn]
      · rw [ih ha]
        cases argString p b <;> rfl
  rw [FMR.string, this]

/-- The context argument is one of those. -/
theorem C52_context {fn : String} {args : List Arg} {v : Val} (h : Arg.mk "context" v ∈ args) :
    FMR.string p (.mk fn args) = "invalid_fmr".toList := C52_invalid ⟨_, h, rfl⟩

end

/-! ### Witnesses -/

/-- the classes of ASCII, and numbers as `fmt.Sscan` reads them -/
def strLex : LexWorld := { asciiLex with scanInt := goScanInt }

theorem strLex_ok : strLex.OK :=
  ⟨asciiLex_ok.1, asciiLex_ok.2, asciiLex_ok.3, asciiLex_ok.4, asciiLex_ok.5, asciiLex_ok.6, asciiLex_ok.7, asciiLex_ok.8⟩

theorem strLex_ints : IntsOK strLex := goScanInt_toString

/-- `strconv.IsPrint` on ASCII; a float that is an integer is printed without a dot, as `(*big.Float).String`
does -/
def strWorld : StrWorld := ⟨fun c => ' ' ≤ c && c < '\x7f', fun q => if q.den = 1 then toString q.num else "1.5"⟩

/-- `nf.f(@)` -/
def ctxFmr : FMR := .mk "nf.f" [.mk "context" (.str "@")]

theorem ctxFmr_ok : FmrOK strLex ctxFmr := by
  have h : FnName strLex "nf.f".toList := .mk (c := 'n') (t := "f.f".toList) (by decide) (by decide) (by decide)
  exact FmrOK.mk (x := "nf.f".toList) h .context .nil

/-- The context argument is not printed. -/
theorem C52_false : ¬ C52_statement := by
  intro h
  obtain ⟨s, e, -⟩ := h strLex strWorld strLex_ok strLex_ints ctxFmr ctxFmr_ok [] (by simp) (by simp) 20 (by decide)
  have : (match semanticFn strLex (ctxFmr.string strWorld ++ []) 20 20 pst0 with | .ok _ => true | _ => false) = false := by
    decide +kernel
  rw [e] at this
  cases this

/-- the function `f` with one argument -/
def fOf (a : Arg) : FMR := .mk "f" [a]

/-- How the function `f` with one argument is printed. -/
def shownAs (a : Arg) : String := String.ofList ((fOf a).string strWorld)

/-- what is read when the function is printed and read again: the type of the argument, and the argument as text -/
def reread (a : Arg) : Option (String × Option String) :=
  match semanticFn strLex ((fOf a).string strWorld ++ ['}']) 30 30 pst0 with
  | .ok (.mk _ [.mk t (.str v)], _) => some (t, v)
  | .ok (.mk _ [.mk t (.bigInt v)], _) => some (t, toString v)
  | .ok (.mk _ [.mk t _], _) => some (t, none)
  | _ => none

/-- A control character is printed with an escape that the grammar does not know. -/
theorem C52_escape : shownAs (.mk "string" (.str "a\r")) = "f(\"a\\r\")" ∧
    reread (.mk "string" (.str "a\r")) = none := by
  refine ⟨by decide +kernel, by decide +kernel⟩

/-- A parenthesis in front is taken for flags: an error, or the flags are lost. -/
theorem C52_flags : reread (.mk "string" (.str "(a)")) = none ∧
    reread (.mk "string" (.str "(?a)b")) = some ("string", some "b") := by
  refine ⟨by decide +kernel, by decide +kernel⟩

/-- White space in front is lost. -/
theorem C52_space : reread (.mk "string" (.str " a")) = some ("string", some "a") := by decide +kernel

/-- A float that is an integer comes back as an integer. -/
theorem C52_float : shownAs (.mk "float" (.bigFloat 2)) = "f(2)" ∧
    reread (.mk "float" (.bigFloat 2)) = some ("int", some "2") := by
  refine ⟨by decide +kernel, by decide +kernel⟩

/-- A function argument that is not valid is printed as if it were a name; the result cannot be read. -/
theorem C52_nested : shownAs (.mk "func" (.fmr ctxFmr)) = "f(invalid_fmr)" ∧
    reread (.mk "func" (.fmr ctxFmr)) = none := by
  refine ⟨by decide +kernel, by decide +kernel⟩

/-- `nf.list("a\n\"", -12, f($1))` survives -/
def backFmr : FMR := .mk "nf.list" [.mk "string" (.str "a\n\""), .mk "int" (.bigInt (-12)), .mk "func" (.fmr (fOf (.mk "index" (.int 1))))]

example : String.ofList (backFmr.string strWorld) = "nf.list(\"a\\n\\\"\",-12,f($1))" := by decide +kernel

theorem C52_example : RoundTrips strLex strWorld backFmr := by
  have hn : FnName strLex "nf.list".toList := .mk (c := 'n') (t := "f.list".toList) (by decide) (by decide) (by decide)
  have hf : FnName strLex "f".toList := .mk (c := 'f') (t := []) (by decide) (by decide) (by decide)
  refine C52_partial strLex_ok (FmrBack.mk (x := "nf.list".toList) hn ?_ (.cons (.int (strLex_ints _)) (.cons (.func ?_) .nil)))
  · exact ArgBack.string (v := "a\n\"".toList) ⟨by decide, by decide⟩
  · exact FmrBack.mk (x := "f".toList) hf (ArgBack.index (n := 1) (by decide)) .nil

end Fmr
