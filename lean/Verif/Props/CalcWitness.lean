import Verif.Props.Calc
import Verif.Proofs.WordWitness

/-!
# C84: a setting in which all assumptions hold, and the refutation
-/

namespace Fmr

/-- the words and rule names of an alternative -/
def bodyKey (b : RuleBody) : List String := b.terms.map (·.value)

/-- the hash of an alternative is its place in the grammar -/
def arHash (b : RuleBody) : Option Nat := some ((arAlts.map bodyKey).idxOf (bodyKey b))

/-- the grammar file is the only one -/
def arLoad : LoadWorld := wordLoad arHash arSplits arithmeticText

theorem arHash_apart : ∀ b ∈ arDefs.flatMap (·.bodies), ∀ b' ∈ arDefs.flatMap (·.bodies), arHash b = arHash b' → b = b' := by
  have e : arDefs.flatMap (·.bodies) = arAlts := by simp [arDefs]
  have hn : (arAlts.map bodyKey).Nodup := by decide +kernel
  rw [e]
  intro b hb b' hb' h
  exact List.inj_on_of_nodup_map hn hb hb' ((List.idxOf_inj (List.mem_map_of_mem hb)).1 (Option.some.inj h))

theorem arLoad_ok (file : String) : ArLoader arLoad file :=
  ⟨wordLoad_file ar_parts rfl (fun _ => by simp [arHash]) arHash_apart file, wordLoad_splits (by unfold KeysNodup; decide +kernel)⟩

theorem ar_loads : ∃ fuel depth ld st, loadFile arLoad fuel depth "arithmetic.grammar" [] = .ok (some ld, st) := by
  obtain ⟨N, ld, st, h⟩ := C84_loads (arLoad_ok "arithmetic.grammar") (fun _ _ => rfl) (fun _ => by simp [arLoad, wordLoad]) []
  exact ⟨N, N, ld, st, h N N le_rfl le_rfl⟩

/-- the functions of math_funcs.go -/
noncomputable def calcNode : NodeWorld :=
  { wPlain with
    call := fun fn vs =>
      match vs with
      | [.str a, .str b] =>
        if fn = "nf.math.sum" then .ok (.str (utf8 (mathSum (fun _ => none) (textOf a) (textOf b))))
        else if fn = "nf.math.sub" then .ok (.str (utf8 (mathSub (fun _ => none) (textOf a) (textOf b))))
        else if fn = "nf.math.mul" then .ok (.str (utf8 (mathMul (fun _ => none) (textOf a) (textOf b))))
        else .err
      | [.str a] => if fn = "nf.math.neg" then .ok (.str (utf8 (mathNeg (fun _ => none) (textOf a)))) else .err
      | _ => .err }

theorem calcNode_calc : HasCalc calcNode (fun _ => none) :=
  ⟨fun x y => by simp [calcNode, textOf_utf8], fun x y => by simp [calcNode, textOf_utf8],
    fun x y => by simp [calcNode, textOf_utf8], fun x => by simp [calcNode, textOf_utf8]⟩

theorem calcNode_calls : CallsReturn calcNode := by
  intro fn vs
  simp only [calcNode]
  split
  · split_ifs
    · exact .ok
    · exact .ok
    · exact .ok
    · exact .err
  · split_ifs
    · exact .ok
    · exact .err
  · exact .err

/-- short expressions have small values -/
theorem reads_small {ws : List String} {c : Calc} (h : ReadsAs ws c) :
    c.value.natAbs ≤ 10 ^ ws.length ∧ (ws.length < 10 → c.Fits) := by
  have hpow : ∀ {a b : Nat}, a < b → b < 10 → 10 ^ a < 10 ^ 10 := fun h1 h2 => Nat.pow_lt_pow_right (by omega) (by omega)
  have hop : ∀ op ∈ [["plus"], ["add"], ["加"]] ++ [["minus"], ["减"]] ++ [["times"], ["multiply", "by"], ["乘"]] ++ [["负"]],
    0 < op.length := by decide
  have bin : ∀ {l op l' : List String} {x y : Int}, 0 < op.length → x.natAbs ≤ 10 ^ l.length → y.natAbs ≤ 10 ^ l'.length →
      (x + y).natAbs ≤ 10 ^ (l ++ op ++ l').length ∧ (x - y).natAbs ≤ 10 ^ (l ++ op ++ l').length ∧
      (x * y).natAbs ≤ 10 ^ (l ++ op ++ l').length := by
    intro l op l' x y h0 h1 h2
    rw [List.length_append, List.length_append]
    have h3 : 10 ^ (l.length + l'.length + 1) ≤ 10 ^ (l.length + op.length + l'.length) :=
      Nat.pow_le_pow_right (by omega) (by omega)
    have h4 : 10 ^ (l.length + l'.length + 1) = 10 * (10 ^ l.length * 10 ^ l'.length) := by ring
    have p1 : 1 ≤ 10 ^ l.length := Nat.one_le_pow _ _ (by omega)
    have p2 : 1 ≤ 10 ^ l'.length := Nat.one_le_pow _ _ (by omega)
    have h5 : 10 ^ l.length ≤ 10 ^ l.length * 10 ^ l'.length := Nat.le_mul_of_pos_right _ p2
    have h6 : 10 ^ l'.length ≤ 10 ^ l.length * 10 ^ l'.length := Nat.le_mul_of_pos_left _ p1
    have h7 : x.natAbs * y.natAbs ≤ 10 ^ l.length * 10 ^ l'.length := Nat.mul_le_mul h1 h2
    refine ⟨by omega, by omega, ?_⟩
    rw [Int.natAbs_mul]
    omega
  have hlt : ∀ {n k : Nat}, n ≤ 10 ^ k → k < 10 → n < 10 ^ 10 := fun h1 h2 =>
    lt_of_le_of_lt h1 (Nat.pow_lt_pow_right (by omega) h2)
  induction h with
  | @num s n h =>
    have : n ≤ 10 := by
      have h2 : ∀ p ∈ numberNames, p.2 ≤ 10 := by decide
      exact h2 _ h
    refine ⟨by simpa [Calc.value] using this, fun _ => ?_⟩
    show n < 10 ^ 10
    omega
  | add ho _ _ h1 h2 =>
    have := bin (hop _ (by simp only [List.mem_append]; exact .inl (.inl (.inl ho)))) h1.1 h2.1
    refine ⟨this.1, fun hl => ⟨h1.2 ?_, h2.2 ?_, hlt this.1 hl⟩⟩ <;> simp only [List.length_append] at hl <;> omega
  | sub ho _ _ h1 h2 =>
    have := bin (hop _ (by simp only [List.mem_append]; exact .inl (.inl (.inr ho)))) h1.1 h2.1
    refine ⟨this.2.1, fun hl => ⟨h1.2 ?_, h2.2 ?_, hlt this.2.1 hl⟩⟩ <;> simp only [List.length_append] at hl <;> omega
  | mul ho _ _ h1 h2 =>
    have := bin (hop _ (by simp only [List.mem_append]; exact .inl (.inr ho))) h1.1 h2.1
    refine ⟨this.2.2, fun hl => ⟨h1.2 ?_, h2.2 ?_, hlt this.2.2 hl⟩⟩ <;> simp only [List.length_append] at hl <;> omega
  | @neg l op a _ _ h1 =>
    have h2 : 10 ^ l.length ≤ 10 ^ (op ++ l).length := Nat.pow_le_pow_right (by omega) (by simp)
    refine ⟨?_, fun hl => h1.2 (by simp only [List.length_append] at hl; omega)⟩
    rw [Calc.value, Int.natAbs_neg]
    exact le_trans h1.1 h2

theorem reads_one {s : String} {c : Calc} (h : ReadsAs [s] c) : ∃ n, (s, n) ∈ numberNames ∧ c = .num n := by
  generalize e : [s] = l at h
  have e := congrArg List.length e
  cases h with
  | num h =>
    obtain rfl := (List.cons.inj ‹_›).1
    exact ⟨_, h, rfl⟩
  | add _ h1 h2 => have := reads_pos h1; have := reads_pos h2; simp only [List.length_append, List.length_singleton] at e; omega
  | sub _ h1 h2 => have := reads_pos h1; have := reads_pos h2; simp only [List.length_append, List.length_singleton] at e; omega
  | mul _ h1 h2 => have := reads_pos h1; have := reads_pos h2; simp only [List.length_append, List.length_singleton] at e; omega
  | @neg l op a h h1 =>
    have := reads_pos h1
    have h2 : ∀ op ∈ [["minus"], ["负"]], op.length = 1 := by decide
    have := h2 _ h
    simp only [List.length_append, List.length_singleton] at e
    omega

/-- two numbers with one word between them can be read in one way -/
theorem reads_three {s x t : String} {m n : Nat} (hs : (s, m) ∈ numberNames) (ht : (t, n) ∈ numberNames) {c : Calc}
    (h : ReadsAs [s, x, t] c) :
    ([x] ∈ [["plus"], ["add"], ["加"]] ∧ c.value = m + n) ∨ ([x] ∈ [["minus"], ["减"]] ∧ c.value = m - n) ∨
      ([x] ∈ [["times"], ["multiply", "by"], ["乘"]] ∧ c.value = m * n) := by
  have hfun : ∀ p ∈ numberNames, ∀ q ∈ numberNames, p.1 = q.1 → p.2 = q.2 := by decide
  have one : ∀ {s : String} {n : Nat} {c : Calc}, (s, n) ∈ numberNames → ReadsAs [s] c → c.value = n := by
    intro s n c h1 h2
    obtain ⟨k, h3, rfl⟩ := reads_one h2
    have := hfun _ h1 _ h3 rfl
    simp only at this
    rw [this]
    rfl
  have split : ∀ {l op l' : List String}, [s, x, t] = l ++ op ++ l' → 0 < l.length → 0 < op.length → 0 < l'.length →
      l = [s] ∧ op = [x] ∧ l' = [t] := by
    intro l op l' e h1 h2 h3
    have h4 := congrArg List.length e
    simp only [List.length_append, List.length_cons, List.length_nil] at h4
    obtain ⟨a, rfl⟩ := List.length_eq_one_iff.1 (show l.length = 1 by omega)
    obtain ⟨b, rfl⟩ := List.length_eq_one_iff.1 (show op.length = 1 by omega)
    obtain ⟨d, rfl⟩ := List.length_eq_one_iff.1 (show l'.length = 1 by omega)
    simp only [List.cons_append, List.cons.injEq] at e
    obtain ⟨rfl, rfl, rfl⟩ := e
    exact ⟨rfl, rfl, rfl⟩
  have hpos : ∀ op ∈ [["plus"], ["add"], ["加"]] ++ [["minus"], ["减"]] ++ [["times"], ["multiply", "by"], ["乘"]], 0 < op.length := by
    decide
  generalize e : [s, x, t] = l at h
  cases h with
  | num h => cases e
  | add h h1 h2 =>
    obtain ⟨rfl, rfl, rfl⟩ := split e (reads_pos h1) (hpos _ (by simp only [List.mem_append]; exact .inl (.inl h))) (reads_pos h2)
    exact .inl ⟨h, by rw [Calc.value, one hs h1, one ht h2]⟩
  | sub h h1 h2 =>
    obtain ⟨rfl, rfl, rfl⟩ := split e (reads_pos h1) (hpos _ (by simp only [List.mem_append]; exact .inl (.inr h))) (reads_pos h2)
    exact .inr (.inl ⟨h, by rw [Calc.value, one hs h1, one ht h2]⟩)
  | mul h h1 h2 =>
    obtain ⟨rfl, rfl, rfl⟩ := split e (reads_pos h1) (hpos _ (by simp only [List.mem_append]; exact .inr h)) (reads_pos h2)
    exact .inr (.inr ⟨h, by rw [Calc.value, one hs h1, one ht h2]⟩)
  | neg h h1 =>
    have h2 : s = "minus" ∨ s = "负" := by
      simp only [List.mem_cons, List.not_mem_nil, or_false] at h
      rcases h with rfl | rfl
      · exact .inl (List.cons.inj e).1
      · exact .inr (List.cons.inj e).1
    have h3 : ∀ p ∈ numberNames, ¬ (p.1 = "minus" ∨ p.1 = "负") := by decide
    exact absurd h2 (h3 _ hs)

/-- C84: all assumptions hold together: seven minus three -/
example : ∃ fuel depth ld st, loadFile arLoad fuel depth "arithmetic.grammar" [] = .ok (some ld, st) ∧
    ∃ N, ∀ fuel ≥ N, ∃ ns, apiParse (wordWorld ["seven", "minus", "three"]) ld.gram fuel "" (wordDoc ["seven", "minus", "three"]).text
      ["number"] = .ok ns ∧ ns ≠ [] ∧ ∀ n ∈ ns, n.value.stop = (wordDoc ["seven", "minus", "three"]).words.length ∧
        ∃ s, WritesInt s 4 ∧ ∀ p : Parsed, p.text = (wordDoc ["seven", "minus", "three"]).text →
          p.env.tokens = (wordDoc ["seven", "minus", "three"]).words → n.eval calcNode p = .ok (.str (utf8 s)) := by
  obtain ⟨fuel, depth, ld, st, h⟩ := ar_loads
  have h2 : ReadsAs ["seven"] (.num 7) := .num (by decide)
  have h3 : ReadsAs ["three"] (.num 3) := .num (by decide)
  refine ⟨fuel, depth, ld, st, h, C84_sure (arLoad_ok _) h _ (fun _ _ _ _ _ => .refl _) calcNode calcNode_calls calcNode_calc
    (wordWorld_ok (by decide) (by decide)) ⟨_, .sub (l := ["seven"]) (op := ["minus"]) (by decide) h2 h3⟩
    fun c hc => ⟨(reads_small hc).2 (by decide), ?_⟩⟩
  rcases reads_three (by decide : ("seven", 7) ∈ numberNames) (by decide : ("three", 3) ∈ numberNames) hc with ⟨h, -⟩ | ⟨-, h⟩ | ⟨h, -⟩
  · exact absurd h (by decide)
  · exact h
  · exact absurd h (by decide)

/-! ## the refutation -/

def arKeyed : List (Def × List (Nat × RuleBody)) := arDefs.map fun d => (d, d.bodies.map fun b => ((arHash b).getD 0, b))

/-- the grammar as it is read -/
def arRaw : Grammar := ⟨"arithmetic.grammar", (addDefs ([], []) arKeyed).1, (addDefs ([], []) arKeyed).2, [], false⟩

/-- the grammar as it is loaded -/
def arGrammar : Grammar :=
  match refine arLoad.ref "g" 100 [] arRaw with
  | .ok x => x.2
  | _ => arRaw

def refineDone : Bool :=
  match refine arLoad.ref "g" 100 [] arRaw with
  | .ok _ => true
  | _ => false

theorem ar_gram {fuel depth : Nat} {ld : Loaded} {st : LoadSt}
    (h : loadFile arLoad fuel depth "arithmetic.grammar" [] = .ok (some ld, st)) : ld.gram = ⟨arGrammar, []⟩ := by
  have hk : List.Forall₂ (fun d e => e.1 = d ∧ keyed arLoad.lex d.bodies = some e.2) arDefs arKeyed := by
    refine .cons ⟨rfl, ?_⟩ .nil
    have : ∀ bs, keyed arLoad.lex bs = some (bs.map fun b => ((arHash b).getD 0, b)) := by
      intro bs
      induction bs with
      | nil => rfl
      | cons b bs ih =>
        unfold keyed
        rw [ih]
        rfl
    exact this _
  obtain ⟨h1, reg', h2⟩ := oneFile_exact ar_parts rfl (arLoad_ok _).file hk h
  obtain ⟨⟨main, includes⟩, index⟩ := ld
  simp only at h1 h2
  subst h1
  have hd : refineDone = true := by decide +kernel
  have h3 : ∃ x, refine arLoad.ref "g" 100 [] arRaw = .ok x := by
    unfold refineDone at hd
    split at hd
    · exact ⟨_, by assumption⟩
    · cases hd
  obtain ⟨x, h3⟩ := h3
  have e : refine arLoad.ref "g" (fuel + 100) [] arRaw = .ok (reg', main) := by
    rw [C25_mono 100 (fun e => by rw [show refine arLoad.ref "g" fuel [] arRaw = _ from h2] at e; cases e)]
    exact h2
  have e' : refine arLoad.ref "g" (fuel + 100) [] arRaw = .ok x := by
    rw [Nat.add_comm, C25_mono fuel (fun e => by rw [h3] at e; cases e)]
    exact h3
  obtain rfl := Out.ok.inj (e.symm.trans e')
  have : arGrammar = main := by
    unfold arGrammar
    rw [h3]
  rw [this]

/-- nine minus two times three minus one -/
def lostWords : List String := ["nine", "minus", "two", "times", "three", "minus", "one"]

def lostCount : Option Nat :=
  match apiParse (wordWorld lostWords) ⟨arGrammar, []⟩ 300 "" (wordDoc lostWords).text ["number"] with
  | .ok ns => some ns.length
  | _ => none

theorem lost_four : lostCount = some 4 := by decide +kernel

/-- Five ways to read the words, with five values. -/
theorem lost_readings : ∀ x ∈ ([20, 2, 4, 14, 5] : List Int), ∃ c, ReadsAs lostWords c ∧ c.value = x := by
  have h1 : ReadsAs ["nine"] (.num 9) := .num (by decide)
  have h2 : ReadsAs ["two"] (.num 2) := .num (by decide)
  have h3 : ReadsAs ["three"] (.num 3) := .num (by decide)
  have h4 : ReadsAs ["one"] (.num 1) := .num (by decide)
  have h12 := ReadsAs.sub (op := ["minus"]) (by decide) h1 h2
  have h23 := ReadsAs.mul (op := ["times"]) (by decide) h2 h3
  have h34 := ReadsAs.sub (op := ["minus"]) (by decide) h3 h4
  have h123 := ReadsAs.mul (op := ["times"]) (by decide) h12 h3
  have h123' := ReadsAs.sub (op := ["minus"]) (by decide) h1 h23
  have h234 := ReadsAs.sub (op := ["minus"]) (by decide) h23 h4
  have h234' := ReadsAs.mul (op := ["times"]) (by decide) h2 h34
  intro x hx
  simp only [List.mem_cons, List.not_mem_nil, or_false] at hx
  rcases hx with rfl | rfl | rfl | rfl | rfl
  · exact ⟨_, .sub (op := ["minus"]) (by decide) h123 h4, rfl⟩
  · exact ⟨_, .sub (op := ["minus"]) (by decide) h123' h4, rfl⟩
  · exact ⟨_, .sub (op := ["minus"]) (by decide) h1 h234, rfl⟩
  · exact ⟨_, .mul (op := ["times"]) (by decide) h12 h34, rfl⟩
  · exact ⟨_, .sub (op := ["minus"]) (by decide) h1 h234', rfl⟩

/-- C84 fails: for nine minus two times three minus one, which has five values, `Parse` returns four trees. -/
theorem C84_false : ¬ C84_statement := by
  intro hall
  obtain ⟨fuel, depth, ld, st, h⟩ := ar_loads
  obtain ⟨N, h1⟩ := hall _ _ (arLoad_ok _) _ _ _ _ _ h _ (fun _ _ _ _ _ => .refl _) calcNode calcNode_calls _ calcNode_calc
    _ _ _ _ (wordWorld_ok (ws := lostWords) (by decide) (by decide)) fun c hc => (reads_small hc).2 (by decide)
  obtain ⟨ns, e1, h2⟩ := h1 (max N 300) (le_max_left _ _)
  have h3 : ns.length = 4 := by
    have := lost_four
    unfold lostCount at this
    split at this
    · rename_i ns' e2
      rw [ar_gram h, apiParse_mono (le_max_right N 300) e2] at e1
      obtain rfl := Out.ok.inj e1
      exact Option.some.inj this
    · cases this
  have hp : ∃ p : Parsed, p.text = (wordDoc lostWords).text ∧ p.env.tokens = (wordDoc lostWords).words :=
    ⟨⟨_, ⟨[], (wordDoc lostWords).words, [], fun _ _ => false, fun _ _ _ l => l⟩, ⟨[], []⟩, 0⟩, rfl, rfl⟩
  obtain ⟨p, p1, p2⟩ := hp
  have hsub : ([20, 2, 4, 14, 5] : List Int).map (fun x => Out.ok (Value.str (utf8 (toString x)))) ⊆ ns.map fun n => n.eval calcNode p := by
    intro y hy
    obtain ⟨x, hx, rfl⟩ := List.mem_map.1 hy
    obtain ⟨n, hn, -, s, hs, h4⟩ := (h2 x).1 (lost_readings x hx)
    refine List.mem_map.2 ⟨n, hn, ?_⟩
    rw [h4 p p1 p2]
    rcases hs with rfl | ⟨rfl, -⟩
    · rfl
    · exact absurd hx (by decide)
  have hnd : (([20, 2, 4, 14, 5] : List Int).map (fun x => Out.ok (Value.str (utf8 (toString x))))).Nodup := by
    refine List.Nodup.map_on (fun x hx y hy e => ?_) (by decide)
    have h5 : ∀ x ∈ ([20, 2, 4, 14, 5] : List Int), ∀ y ∈ ([20, 2, 4, 14, 5] : List Int), toString x = toString y → x = y := by
      decide +kernel
    exact h5 x hx y hy (utf8_injective (Value.str.inj (Out.ok.inj e)))
  have := (List.subperm_of_subset hnd hsub).length_le
  rw [List.length_map, List.length_map, h3] at this
  exact absurd this (by decide)

end Fmr
