import Verif.Proofs.LexerDefs

/-!
# Everything well-formed can be written
-/

namespace Fmr

/-- a text with the escapes of the syntax -/
def quoteLit : List Char → List Char
  | [] => []
  | c :: l =>
    if c = '\\' then '\\' :: '\\' :: quoteLit l
    else if c = '\n' then '\\' :: 'n' :: quoteLit l
    else if c = '\t' then '\\' :: 't' :: quoteLit l
    else if c = '"' then '\\' :: '"' :: quoteLit l
    else if c = '(' then '\\' :: '(' :: quoteLit l
    else c :: quoteLit l

theorem quoteLit_text (v : List Char) : LitText (quoteLit v) v := by
  induction v with
  | nil => exact .nil
  | cons c l ih =>
    unfold quoteLit
    split
    · rename_i h; subst h; exact .esc (by simp) ih
    split
    · rename_i h; subst h; exact .esc (by simp) ih
    split
    · rename_i h; subst h; exact .esc (by simp) ih
    split
    · rename_i h; subst h; exact .esc (by simp) ih
    split
    · rename_i h; subst h; exact .esc (by simp) ih
    · rename_i h1 _ _ h2 _
      exact .plain h2 h1 ih

theorem quoteLit_good {v : List Char} (h : runeError ∉ v) : runeError ∉ quoteLit v := by
  have key : ∀ c : Char, c ∈ ['\\', 'n', 't', '"', '('] → runeError ≠ c := by decide
  induction v with
  | nil => simp [quoteLit]
  | cons c l ih =>
    rw [List.mem_cons, not_or] at h
    have := ih h.2
    unfold quoteLit
    have k1 := key '\\' (by simp)
    have k2 := key 'n' (by simp)
    have k3 := key 't' (by simp)
    have k4 := key '"' (by simp)
    have k5 := key '(' (by simp)
    have k6 := h.1
    repeat' split
    all_goals
      simp only [List.mem_cons, not_or]
      try exact ⟨k1, k1, this⟩
      try exact ⟨k1, k2, this⟩
      try exact ⟨k1, k3, this⟩
      try exact ⟨k1, k4, this⟩
      try exact ⟨k1, k5, this⟩
      try exact ⟨k6, this⟩

section
variable {w : LexWorld} (hw : w.OK)
include hw

theorem quoteLit_head {v : List Char} (h : LitOK w v) :
    ∀ c, (quoteLit v).head? = some c → w.isSpace c = false ∧ c ≠ '(' := by
  intro c hc
  cases v with
  | nil => simp [quoteLit] at hc
  | cons x l =>
    have hb : w.isSpace '\\' = false := (hw.punct '\\' (by decide)).2.2
    unfold quoteLit at hc
    split at hc
    · cases hc; exact ⟨hb, by decide⟩
    split at hc
    · cases hc; exact ⟨hb, by decide⟩
    split at hc
    · cases hc; exact ⟨hb, by decide⟩
    split at hc
    · cases hc; exact ⟨hb, by decide⟩
    split at hc
    · cases hc; exact ⟨hb, by decide⟩
    · rename_i h1 h2 h3 h4 h5
      cases hc
      refine ⟨?_, h5⟩
      cases hs : w.isSpace c with
      | false => rfl
      | true => exact absurd (h.2 c rfl hs) (by simp [h2, h3])

theorem exists_literal {v : List Char} (h : LitOK w v) :
    ∃ l, runeError ∉ l ∧ LitSyn w l "" (String.ofList v) := by
  refine ⟨'"' :: ([] ++ (quoteLit v ++ ['"'])), ?_, .plain (by simp [Spaces]) (quoteLit_text v)
    (quoteLit_head hw h)⟩
  simp only [List.nil_append, List.mem_cons, List.mem_append, List.not_mem_nil, or_false, not_or]
  exact ⟨by decide, quoteLit_good h.1, by decide⟩

theorem Ident.good {x : List Char} (h : Ident w x) : runeError ∉ x := by
  cases h with
  | @mk c t hc ht =>
    rw [List.mem_cons, not_or]
    refine ⟨?_, fun hm => ?_⟩
    · rintro rfl
      rcases hc with hc | hc
      · rw [hw.unknown.1] at hc; cases hc
      · exact absurd hc (by decide)
    · rcases ht _ hm with hc | hc | hc
      · rw [hw.unknown.1] at hc; cases hc
      · exact absurd hc (by decide)
      · rw [hw.unknown.2.1] at hc; cases hc

theorem FnName.good {x : List Char} (h : FnName w x) : runeError ∉ x := by
  cases h with
  | @mk c t hc ht =>
    rw [List.mem_cons, not_or]
    refine ⟨?_, fun hm => ?_⟩
    · rintro rfl
      rcases hc with hc | hc
      · rw [hw.unknown.1] at hc; cases hc
      · exact absurd hc (by decide)
    · rcases ht _ hm with hc | hc | hc | hc
      · rw [hw.unknown.1] at hc; cases hc
      · exact absurd hc (by decide)
      · rw [hw.unknown.2.1] at hc; cases hc
      · exact absurd hc (by decide)

theorem exists_flagged {f v : List Char} (hf : Ident w f) (h : runeError ∉ v) :
    ∃ l, runeError ∉ l ∧ LitSyn w l (String.ofList f) (String.ofList v) := by
  refine ⟨_, ?_, .flags (s := []) (s1 := []) (s2 := []) (by simp [Spaces]) (by simp [Spaces]) (by simp [Spaces]) hf
    (quoteLit_text v)⟩
  have h1 := hf.good hw
  have h2 := quoteLit_good h
  simp only [List.nil_append, List.mem_cons, List.mem_append, List.not_mem_nil, or_false, not_or]
  exact ⟨by decide, by decide, by decide, h1, by decide, h2, by decide⟩

omit hw in
theorem digits_num {n : Nat} (h : n < 2 ^ 63) : runeError ∉ Nat.toDigits 10 n ∧ Num (Nat.toDigits 10 n) n := by
  have hd : ∀ c ∈ Nat.toDigits 10 n, '0' ≤ c ∧ c ≤ '9' := by
    intro c hc
    have := Nat.isDigit_of_mem_toDigits (b := 10) (by decide) (by decide) hc
    simpa [Char.isDigit, Char.le_def, UInt32.le_iff_toNat_le] using this
  refine ⟨fun hm => ?_, ?_⟩
  · exact absurd (hd _ hm) (by decide)
  · have := num_small Nat.toDigits_ne_nil hd (by rw [Nat.ofDigitChars_ten_toDigits]; exact h)
    rwa [Nat.ofDigitChars_ten_toDigits] at this

omit hw in
theorem exists_range {m : Meta} (h : RangeOK m) : ∃ l, runeError ∉ l ∧ RangeSyn w l m := by
  cases h with
  | none => exact ⟨[], by simp, .none (by simp [Spaces])⟩
  | @some a b h1 h2 =>
    have ha := digits_num (show a < 2 ^ 63 by omega)
    have hb := digits_num h2
    have hn : Spaces w [] := by simp [Spaces]
    refine ⟨_, ?_, .some hn hn hn hn hn hn ha.2 hb.2 (Int.ofNat_le.2 h1)⟩
    simp only [List.nil_append, List.mem_cons, List.mem_append, List.not_mem_nil, or_false, not_or]
    exact ⟨by decide, ha.1, by decide, hb.1, by decide⟩

theorem exists_term {t : Term} (h : TermOK w t) (ρ : List (String × String)) :
    ∃ l ρ', runeError ∉ l ∧ TermSyn w l t ρ ρ' := by
  have hn : Spaces w [] := by simp [Spaces]
  cases h with
  | nonterminal hx =>
    refine ⟨_, ρ, ?_, .nonterminal hx⟩
    have h1 := hx.good hw
    simp only [List.mem_cons, List.mem_append, List.not_mem_nil, or_false, not_or]
    exact ⟨by decide, h1, by decide⟩
  | literal hv =>
    obtain ⟨l, hl, hs⟩ := exists_literal hw hv
    exact ⟨l, ρ, hl, .literal hs⟩
  | @flagged f v hf hv =>
    obtain ⟨l, hl, hs⟩ := exists_flagged hw hf hv
    refine ⟨l, ρ, hl, .flagged hs ?_⟩
    cases hf
    intro e
    have := congrArg String.toList e
    simp at this
  | any hm =>
    obtain ⟨l, hl, hs⟩ := exists_range (w := w) hm
    refine ⟨_, ρ, ?_, .any hn hs⟩
    simp only [List.nil_append, List.mem_cons, List.mem_append, List.not_mem_nil, or_false, not_or]
    exact ⟨by decide, by decide, by decide, by decide, hl, by decide⟩
  | list hx hm =>
    obtain ⟨l, hl, hs⟩ := exists_range (w := w) hm
    refine ⟨_, ρ, ?_, .list hn hn hx hs⟩
    have h1 := hx.good hw
    simp only [List.nil_append, List.mem_cons, List.mem_append, List.not_mem_nil, or_false, not_or]
    exact ⟨by decide, by decide, by decide, by decide, by decide, by decide, h1, by decide, hl, by decide⟩
  | regex h1 h2 h3 h4 h5 =>
    refine ⟨_, _, ?_, .regex hn h2 h3 h4 h5⟩
    simp only [List.nil_append, List.mem_cons, List.mem_append, List.not_mem_nil, or_false, not_or]
    exact ⟨by decide, h1, by decide⟩

theorem NumTok.good {d : List Char} {dot : Bool} (h : NumTok w d dot) : runeError ∉ d := by
  intro hm
  rcases h.2.1 _ hm with h | h
  · rw [hw.unknown.2.1] at h; cases h
  · exact absurd h (by decide)

mutual
theorem exists_fmr : ∀ {f : FMR}, FmrOK w f → ∃ l, runeError ∉ l ∧ FmrSyn w l f
  | _, .mk hx ha has => by
    obtain ⟨l0, hl0, hs0⟩ := exists_arg ha
    obtain ⟨l, hl, hs⟩ := exists_args has hl0 hs0
    have hn : Spaces w [] := by simp [Spaces]
    refine ⟨_, ?_, .mk hn hx hn hs hn⟩
    have h1 := hx.good hw
    simp only [List.nil_append, List.append_nil, List.mem_cons, List.mem_append, not_or]
    exact ⟨h1, by decide, hl⟩
theorem exists_args : ∀ {as : List Arg}, ArgsOK w as → ∀ {l : List Char} {a : Arg}, runeError ∉ l → ArgSyn w l a →
    ∃ l', runeError ∉ l' ∧ ArgsSyn w l' (a :: as)
  | _, .nil, _, _, hl, hs => by
    have hn : Spaces w [] := by simp [Spaces]
    refine ⟨_, ?_, .last hn hs hn⟩
    simp only [List.nil_append, List.mem_cons, List.mem_append, List.not_mem_nil, or_false, not_or]
    exact ⟨hl, by decide⟩
  | _, .cons hb hbs, _, _, hl, hs => by
    obtain ⟨l1, hl1, hs1⟩ := exists_arg hb
    obtain ⟨l2, hl2, hs2⟩ := exists_args hbs hl1 hs1
    have hn : Spaces w [] := by simp [Spaces]
    refine ⟨_, ?_, .more hn hs hn hs2⟩
    simp only [List.nil_append, List.mem_cons, List.mem_append, not_or]
    exact ⟨hl, by decide, hl2⟩
theorem exists_arg : ∀ {a : Arg}, ArgOK w a → ∃ l, runeError ∉ l ∧ ArgSyn w l a
  | _, .context => ⟨_, by decide, .context⟩
  | _, .index hn => by
    have := digits_num hn
    refine ⟨_, ?_, .index this.2⟩
    rw [List.mem_cons, not_or]
    exact ⟨by decide, this.1⟩
  | _, .string hv => by
    obtain ⟨l, hl, hs⟩ := exists_flagged (f := ['x']) hw (.mk (.inl (hw.letters 'x' (by decide) (by decide))) (by simp)) hv
    exact ⟨l, hl, .string hs⟩
  | _, .int hnum hs => by
    obtain ⟨d, ⟨rfl, hd⟩ | rfl, ht⟩ := hnum
    · exact ⟨d, ht.good hw, .int ht hd hs⟩
    · refine ⟨'-' :: d, ?_, .negInt ht hs⟩
      rw [List.mem_cons, not_or]
      exact ⟨by decide, ht.good hw⟩
  | _, .float hnum hs => by
    obtain ⟨d, ⟨rfl, hd⟩ | rfl, ht⟩ := hnum
    · exact ⟨d, ht.good hw, .float ht hd hs⟩
    · refine ⟨'-' :: d, ?_, .negFloat ht hs⟩
      rw [List.mem_cons, not_or]
      exact ⟨by decide, ht.good hw⟩
  | _, .func hf => by
    obtain ⟨l, hl, hs⟩ := exists_fmr hf
    exact ⟨l, hl, .func hs⟩
end

theorem exists_terms {ts : List Term} (hne : ts ≠ []) (h : ∀ t ∈ ts, TermOK w t) (ρ : List (String × String)) :
    ∃ l ρ', runeError ∉ l ∧ TermsSyn w l ts ρ ρ' := by
  induction ts generalizing ρ with
  | nil => exact absurd rfl hne
  | cons t ts ih =>
    obtain ⟨l, ρ1, hl, hs⟩ := exists_term hw (h t List.mem_cons_self) ρ
    cases ts with
    | nil => exact ⟨l ++ [], ρ1, by simpa using hl, .one hs Gap.nil⟩
    | cons t' ts =>
      obtain ⟨l2, ρ2, hl2, hs2⟩ := ih (by simp) (fun t ht => h t (List.mem_cons_of_mem _ ht)) ρ1
      refine ⟨l ++ ([] ++ l2), ρ2, ?_, .more hs Gap.nil hs2⟩
      simp only [List.nil_append, List.mem_append, not_or]
      exact ⟨hl, hl2⟩

theorem exists_body {b : RuleBody} (h : BodyOK w b) (ρ : List (String × String)) :
    ∃ l ρ', runeError ∉ l ∧ BodySyn w l b ρ ρ' := by
  obtain ⟨l, ρ1, hl, hs⟩ := exists_terms hw h.ne h.terms ρ
  obtain ⟨ts, f⟩ := b
  cases f with
  | none => exact ⟨l, ρ1, hl, .plain hs⟩
  | some f =>
    obtain ⟨l2, hl2, hs2⟩ := exists_fmr hw (h.f f rfl)
    refine ⟨_, ρ1, ?_, .fn hs hs2 Gap.nil⟩
    simp only [List.mem_cons, List.mem_append, List.not_mem_nil, or_false, not_or]
    exact ⟨hl, by decide, hl2, by decide⟩

theorem exists_bodies {bs : List RuleBody} (hne : bs ≠ []) (h : ∀ b ∈ bs, BodyOK w b) (ρ : List (String × String)) :
    ∃ l ρ', runeError ∉ l ∧ BodiesSyn w l bs ρ ρ' := by
  induction bs generalizing ρ with
  | nil => exact absurd rfl hne
  | cons t ts ih =>
    obtain ⟨l, ρ1, hl, hs⟩ := exists_body hw (h t List.mem_cons_self) ρ
    cases ts with
    | nil => exact ⟨l, ρ1, hl, .one hs⟩
    | cons t' ts =>
      obtain ⟨l2, ρ2, hl2, hs2⟩ := ih (by simp) (fun t ht => h t (List.mem_cons_of_mem _ ht)) ρ1
      refine ⟨_, ρ2, ?_, .more hs Gap.nil hs2⟩
      simp only [List.nil_append, List.mem_cons, List.mem_append, not_or]
      exact ⟨hl, by decide, hl2⟩

theorem exists_def {d : Def} (h : DefOK w d) (ρ : List (String × String)) :
    ∃ l ρ', runeError ∉ l ∧ DefSyn w l d ρ ρ' := by
  obtain ⟨x, hx, hid⟩ := h.name
  obtain ⟨l, ρ1, hl, hs⟩ := exists_bodies hw h.ne h.bodies ρ
  obtain ⟨fr, name, bs⟩ := d
  cases hx
  have h1 := hid.good hw
  cases fr with
  | false =>
    refine ⟨_, ρ1, ?_, .rule hid Gap.nil Gap.nil hs⟩
    simp only [List.nil_append, List.mem_cons, List.mem_append, List.not_mem_nil, or_false, not_or]
    exact ⟨by decide, h1, by decide, by decide, hl, by decide⟩
  | true =>
    refine ⟨_, ρ1, ?_, .frame hid Gap.nil Gap.nil hs⟩
    simp only [List.nil_append, List.mem_cons, List.mem_append, List.not_mem_nil, or_false, not_or]
    exact ⟨by decide, h1, by decide, by decide, hl, by decide⟩

theorem exists_defs {ds : List Def} (h : ∀ d ∈ ds, DefOK w d) (ρ : List (String × String)) :
    ∃ l ρ', runeError ∉ l ∧ DefsSyn w l ds ρ ρ' := by
  induction ds generalizing ρ with
  | nil => exact ⟨[], ρ, by simp, .nil Gap.nil⟩
  | cons d ds ih =>
    obtain ⟨l, ρ1, hl, hs⟩ := exists_def hw (h d List.mem_cons_self) ρ
    obtain ⟨l2, ρ2, hl2, hs2⟩ := ih (fun t ht => h t (List.mem_cons_of_mem _ ht)) ρ1
    refine ⟨_, ρ2, ?_, .cons Gap.nil hs hs2⟩
    simp only [List.nil_append, List.mem_append, not_or]
    exact ⟨hl, hl2⟩

end

end Fmr
