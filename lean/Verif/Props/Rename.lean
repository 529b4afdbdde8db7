import Verif.Proofs.Rename
import Verif.Props.Spines
import Verif.Props.Eval

/-!
# C93: the names of rules do not matter
-/

namespace Fmr

/-- C93: Give the rules other names, all different, and drop or add rules that cannot be reached from
the start rules. Whatever orders of iteration the run with the new names takes, there are orders for the
run with the old names such that both have the same states, matches and trees, up to the names. -/
theorem C93_names (ρ : String → String) (R : String → Prop) (env env' : Env) (h : Renames ρ R env env')
    (ho : env'.OrdOK) : ∃ ord, ({ env with ord := ord } : Env).OrdOK ∧
    (∀ flag fuel, parse env' flag fuel = (parse { env with ord := ord } flag fuel).map (ParseResult.ren ρ)) ∧
    ∀ (res : ParseResult) (f c r : Nat),
      getTrees (res.ren ρ).chart f c r = (getTrees res.chart f c r).map (·.map (Node.ren ρ)) := by
  obtain ⟨ord, h1, h2⟩ := sameOrder_exists (env := env) (ρ := ρ) ho
  exact ⟨ord, h1, fun flag fuel => ren_parse (h.withOrd ord) h2 h1 flag fuel,
    fun res f c r => ren_getTrees h.inj res.chart f c r⟩

/-- With the same orders, the runs correspond step by step. -/
theorem C93_same_order (ρ : String → String) (R : String → Prop) (env env' : Env) (h : Renames ρ R env env')
    (ho : env.OrdOK) (hs : SameOrder ρ env env') (flag : Bool) (fuel : Nat) :
    parse env' flag fuel = (parse env flag fuel).map (ParseResult.ren ρ) :=
  ren_parse h hs ho flag fuel

/-- If no function takes the context `@`, the trees mean the same: `Semantic` and `Eval` return the same
results under both names. -/
theorem C93_meanings (ρ : String → String) (env env' : Env) (ht : env'.tokens = env.tokens)
    (hp : env.Plain) (ho : env.OrdOK) (flag : Bool) (fuel : Nat) (res : ParseResult)
    (h : parse env flag fuel = some res) (f c r : Nat) (ts : List Node)
    (hts : getTrees res.chart f c r = some ts) (n : Node) (hn : n ∈ ts)
    (w : NodeWorld) (text : Bytes) (off : Nat) :
    (n.ren ρ).semantic w { text := text, env := env', res := res.ren ρ, off := off } =
      n.semantic w { text := text, env := env, res := res, off := off } ∧
    (n.ren ρ).eval w { text := text, env := env', res := res.ren ρ, off := off } =
      n.eval w { text := text, env := env, res := res, off := off } := by
  have hpl : n.Plain := by
    unfold getTrees at hts
    cases hc : res.chart[c]? with
    | none => rw [hc] at hts; simp at hts
    | some col =>
      rw [hc] at hts
      simp only at hts
      cases hr : col[r]? with
      | none => rw [hr] at hts; simp at hts
      | some s =>
        rw [hr] at hts
        simp only at hts
        have hat : chartGet res.chart c r = some s := by simp [chartGet, hc, hr]
        obtain ⟨_, _, hch⟩ := parse_at ho h hat
        have hall : ∀ col ∈ res.chart, ∀ x ∈ col, x.Plain := by
          intro col hcol x hx
          obtain ⟨i, hi⟩ := List.mem_iff_getElem?.1 hcol
          exact item_plain hp (hch i col hi x hx)
        exact buildTrees_plain hall f c r s ts
          (hall col (List.mem_of_getElem? hc) s (List.mem_of_getElem? hr)) hts n hn
  have := ren_kid (ρ := ρ) (w := w) (p := { text := text, env := env, res := res, off := off })
    (p' := { text := text, env := env', res := res.ren ρ, off := off }) rfl ht n hpl
  simp only [Kid.view, Prod.mk.injEq] at this
  exact ⟨this.2.2, this.2.1⟩

/-- exchange of two names -/
def swapName (a b s : String) : String := if s = a then b else if s = b then a else s

theorem swapName_inj (a b : String) : ∀ s t, swapName a b s = swapName a b t → s = t := by
  intro s t h
  unfold swapName at h
  split at h <;> split at h <;> (try split at h) <;> (try split at h) <;> simp_all

theorem Term.ren_id (t : Term) : t.ren id = t := by unfold Term.ren; split <;> rfl
theorem TState.ren_id (s : TState) : s.ren id = s := by
  unfold TState.ren
  have hr : RuleBody.ren id = id := by
    funext b
    have : Term.ren id = id := by funext t; exact Term.ren_id t
    simp [RuleBody.ren, this]
  rw [hr, Term.ren_id]
  simp
theorem ParseResult.ren_id (r : ParseResult) : r.ren id = r := by
  have : TState.ren id = id := by funext s; exact TState.ren_id s
  simp [ParseResult.ren, this]

/-- Rules that cannot be reached from the start rules have no influence on anything. -/
theorem C93_unreachable (R : String → Prop) (env : Env) (gs : List Grammar) (ho : env.OrdOK)
    (hroot : ∀ S ∈ env.starts, R S)
    (hclosed : ∀ A, R A → ∀ g ∈ env.grammars, ∀ r, g.rules.lookup A = some r → ∀ b ∈ r.bodies, ∀ t ∈ b.terms,
      t.within R)
    (hsame : List.Forall₂ (fun g g' => ∀ A, R A → g'.rules.lookup A = g.rules.lookup A) env.grammars gs)
    (flag : Bool) (fuel : Nat) : parse { env with grammars := gs } flag fuel = parse env flag fuel := by
  have hr : RuleBody.ren id = id := by
    funext b
    have : Term.ren id = id := by funext t; exact Term.ren_id t
    simp [RuleBody.ren, this]
  have h : Renames id R env { env with grammars := gs } :=
    { inj := fun _ _ h => h, gamma := rfl, tokens := rfl, tmatch := rfl, starts := by simp,
      rules := hsame.imp (fun g g' h A hA => by
        show (g'.rules.lookup A).map Rule.view = _
        rw [h A hA]
        congr 1
        funext r
        simp [Rule.view, hr]),
      roots := hroot, closed := hclosed }
  have hs : SameOrder id env { env with grammars := gs } := fun c r k l => by simp [hr]
  rw [ren_parse h hs ho]
  cases parse env flag fuel with
  | none => rfl
  | some r => simp [ParseResult.ren_id]

/-! ## non-vacuity -/

/-- `<s> = <x> "b"; <x> = "a"` with any name for `<x>` -/
def wNamed (x : String) (more : List (String × Rule)) : Env :=
  { grammars := [{ name := "g", rules := [rl "s" [[nt x, tt "b"]], rl x [[tt "a"]]] ++ more }],
    tokens := [tk "a", tk "b"], starts := ["s"], tmatch := plainMatch, ord := revOrd }

theorem wNamed_renames : Renames (swapName "x" "num") (fun A => A = "s" ∨ A = "x")
    (wNamed "x" [rl "y" [[nt "y"]]]) (wNamed "num" []) where
  inj := swapName_inj _ _
  gamma := by decide
  tokens := rfl
  tmatch := rfl
  starts := by decide
  rules := by
    refine .cons ?_ .nil
    rintro A (rfl | rfl) <;> rfl
  roots := by simp [wNamed]
  closed := by
    rintro A (rfl | rfl) g hg r hr b hb t ht <;>
      (simp [wNamed] at hg; subst hg; simp [rl, List.lookup] at hr; subst hr
       simp [Rule.bodies, nt, tt] at hb; subst hb; simp at ht)
    · rcases ht with rfl | rfl <;> simp [Term.within]
    · subst ht; simp [Term.within]

example : (parse (wNamed "num" []) true 60).map (fun r => (getTrees r.chart 60 2 1).map (·.map (·.shape.labels))) =
    some (some [["ɣ", "s", "num", "a", "b"]]) := by decide +kernel

/-- The renamed grammar accepts the text with the same tree, as `C93_names` says. -/
example : ∃ ord, ({ wNamed "x" [rl "y" [[nt "y"]]] with ord := ord } : Env).OrdOK ∧
    parse (wNamed "num" []) true 60 =
      (parse { wNamed "x" [rl "y" [[nt "y"]]] with ord := ord } true 60).map (ParseResult.ren (swapName "x" "num")) := by
  obtain ⟨ord, h1, h2, _⟩ := C93_names _ _ _ _ wNamed_renames (fun c r k l => revOrd_ok c r k l)
  exact ⟨ord, h1, h2 true 60⟩

/-! ## where names do matter -/

/-- `<s> = <x> | <y>` with rules `<x> = "a"` and `<y> = "a"`, or with one rule for both -/
def wMerge (y : String) : Env :=
  { grammars := [{ name := "g", rules := [rl "s" [[nt "x"], [nt y]], rl "x" [[tt "a"]], rl "y" [[tt "a"]]] }],
    tokens := [tk "a"], starts := ["s"], tmatch := plainMatch, ord := idOrd }

/-- Two rules with the same alternatives must keep different names: with one name there is one tree less. -/
theorem C93_merge : (parse (wMerge "y") true 60).map (fun r => (getTrees r.chart 60 1 4).map (·.map (·.shape.labels))) =
      some (some [["ɣ", "s", "x", "a"], ["ɣ", "s", "y", "a"]]) ∧
    (parse (wMerge "x") true 60).map (fun r => (getTrees r.chart 60 1 2).map (·.map (·.shape.labels))) =
      some (some [["ɣ", "s", "x", "a"]]) := by decide +kernel

/-- `<s> = <x> {f(@)}; <x> = "a" {f($1)}` with any name for `<x>` -/
def wCtxName (x : String) : Env :=
  { grammars := [{ name := "g", rules := [
      ("s", { name := "s", body := [(0, { terms := [nt x], f := some (.mk "f" [.mk "context" (.str "@")]) })] }),
      (x, { name := x, body := [(0, { terms := [tt "a"], f := some (.mk "f" [.mk "index" (.int 1)]) })] })] }],
    tokens := [{ text := "a", startByte := 0, endByte := 1 }], starts := ["s"], tmatch := plainMatch, ord := idOrd }

/-- the names in a context that is returned in a list -/
def ctxNames : Out Value → List String
  | .ok (.list [.ctx _ _ nodes _]) => nodes.map (·.1)
  | _ => []

/-- all trees of the match of all of `a`, with the parse -/
def wCtxTrees (x : String) : List (Node × Parsed) :=
  match parse (wCtxName x) true 60 with
  | none => []
  | some r => ((getTrees r.chart 60 1 2).getD []).map (fun n => (n, { text := [97], env := wCtxName x, res := r, off := 0 }))

/-- A function that takes the context `@` sees the names. -/
theorem C93_context :
    (wCtxTrees "x").map (fun q => ctxNames (q.1.eval wPlain q.2)) = [["x"]] ∧
    (wCtxTrees "num").map (fun q => ctxNames (q.1.eval wPlain q.2)) = [["num"]] := by decide +kernel

/-- the text of a result -/
def outText : Out String → String
  | .ok s => s
  | _ => ""

/-- `Bracketed` takes rules whose names begin with `l_t_` or `g_t_` for literals and leaves out what is below. -/
theorem C93_prefix :
    (wCtxTrees "x").map (fun q => outText (q.1.bracketed wPlain q.2)) = ["[s [x \"a\"]]"] ∧
    (wCtxTrees "l_t_x").map (fun q => outText (q.1.bracketed wPlain q.2)) = ["[s \"a\"]"] := by decide +kernel

/-- number of subtrees shown by `Tree` -/
def treeKids : Out TreeVal → Option Nat
  | .ok (.mk _ _ _ nodes) => nodes.map List.length
  | _ => none

/-- So does `Tree`. -/
theorem C93_prefix_tree :
    (wCtxTrees "x").map (fun q => treeKids (q.1.tree q.2)) = [some 1] ∧
    (wCtxTrees "g_t_x").map (fun q => treeKids (q.1.tree q.2)) = [none] := by decide +kernel

end Fmr
