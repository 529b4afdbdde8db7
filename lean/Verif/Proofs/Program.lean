import Verif.Proofs.Act
import Verif.Props.Calc

/-!
# The answers of examples/arithmetic
-/

namespace Fmr

theorem utf8_append (a b : String) : utf8 (a ++ b) = utf8 a ++ utf8 b := by
  simp [utf8]

theorem utf8_join_cons (a : String) (l : List String) : utf8 (String.join (a :: l)) = utf8 a ++ utf8 (String.join l) := by
  rw [String.join_cons, utf8_append]

theorem treesOf_single {fuel : Nat} {p : Parsed} {ns : List Node} (h : treesOf fuel true p = .ok ns) (hs : p.env.starts ≠ [])
    (hn : ns ≠ []) : ∃ f, finalPtrs true p.res.chart = [f] ∧ Out.ofFuel (getTrees p.res.chart fuel f.1 f.2) = .ok ns := by
  rw [treesOf, if_neg hs] at h
  rw [finalPtrs, if_pos rfl] at h ⊢
  cases hl : finalPtrsAll p.res.chart with
  | nil =>
    rw [hl] at h
    exact absurd (Out.ok.inj h).symm hn
  | cons f l =>
    rw [hl, List.take_succ_cons, List.take_zero] at h
    rw [List.take_succ_cons, List.take_zero]
    refine ⟨f, rfl, ?_⟩
    obtain ⟨x, h1, h2⟩ := Out.bind_eq_ok.1 h
    obtain ⟨y, h3, h4⟩ := Out.bind_eq_ok.1 h2
    obtain rfl : [] = y := Out.ok.inj h3
    rw [List.append_nil] at h4
    exact h1.trans h4

/-- The engine calculates: from a state with `Ok`, the text of an expression gives its value, as long as no number in it has
more than ten digits, and the state has `Ok` again. -/
def JsCalc {V R : Type} (js : Js V R) (Ok : V → Prop) : Prop :=
  ∀ (v : V) (c : Calc), Ok v → c.Fits → ∃ v' r s, js.run v c.js = (v', some r) ∧ Ok v' ∧ js.str r = utf8 s ∧ WritesInt s c.value

section
variable {V R : Type} {js : Js V R} {Ok : V → Prop} (hjs : JsCalc js Ok) {nw : NodeWorld} {text : Bytes} {toks : List Token}
  {ws : List String} (hfit : ∀ i k c, ReadsAs ((ws.drop i).take k) c → c.Fits)
include hjs hfit

theorem does_tree {p : Parsed} {S : String} {i k : Nat} {n : Node} (hp : p.text = text) (ht : p.env.tokens = toks.drop i)
    (h : CalcTree ws nw text toks i S k n) :
    Does Ok (arithmeticTree nw js p n) (fun o => ∃ r : Calc × String, ReadsAs ((ws.drop i).take k) r.1 ∧ WritesInt r.2 r.1.value ∧
      o = utf8 (r.1.js ++ " = " ++ r.2 ++ "\n")) := by
  obtain ⟨-, c, h1, h2, -⟩ := h
  intro v hv
  obtain ⟨v', r, s, g1, g2, g3, g4⟩ := hjs v c hv (hfit _ _ _ h1)
  refine ⟨_, v', ?_, g2, (c, s), h1, g4, rfl⟩
  rw [arithmeticTree, need_ok (h2 p hp ht), Act.bind_of (v' := v') (o := []) (a := some r) (by rw [Js.call, g1])]
  simp only [say, List.nil_append, g3, utf8_append]

theorem does_parse {fuel m : Nat} {p : Parsed} {a : (Nat × Nat) × List Node} (hp : p.text = text) (ht : p.env.tokens = toks.drop a.1.1)
    (hs : p.env.starts ≠ []) (htr : treesOf fuel true p = .ok a.2) (hne : a.2 ≠ [])
    (h : ∀ n ∈ a.2, ∃ S, CalcTree ws nw text toks a.1.1 S a.1.2 n) :
    Does Ok (arithmeticParse nw js fuel (p, m)) (fun o => ∃ rs : List (Calc × String), rs ≠ [] ∧
      (∀ r ∈ rs, ReadsAs ((ws.drop a.1.1).take a.1.2) r.1 ∧ WritesInt r.2 r.1.value) ∧
      o = utf8 (FoundCalc.text m ⟨a.1.1, a.1.2, rs⟩)) := by
  obtain ⟨f, h1, h2⟩ := treesOf_single htr hs hne
  have key : ∀ l : List Node, (∀ n ∈ l, ∃ S, CalcTree ws nw text toks a.1.1 S a.1.2 n) →
      Does Ok (forEach (arithmeticTree nw js p) l) (fun o => ∃ rs : List (Calc × String), rs.length = l.length ∧
        (∀ r ∈ rs, ReadsAs ((ws.drop a.1.1).take a.1.2) r.1 ∧ WritesInt r.2 r.1.value) ∧
        o = utf8 (String.join (rs.map fun r => r.1.js ++ " = " ++ r.2 ++ "\n"))) := by
    intro l hl
    induction l with
    | nil => exact fun v hv => ⟨[], v, rfl, hv, [], rfl, by simp, by decide +kernel⟩
    | cons n l ih =>
      obtain ⟨S, hn⟩ := hl n List.mem_cons_self
      refine (Does.seq (does_tree hjs hfit hp ht hn) (ih fun b hb => hl b (List.mem_cons_of_mem _ hb))).imp ?_
      rintro o ⟨x, y, ⟨r, g1, g2, rfl⟩, ⟨rs, g3, g4, rfl⟩, rfl⟩
      refine ⟨r :: rs, by simp [g3], ?_, by rw [List.map_cons, utf8_join_cons]⟩
      intro r' hr'
      rcases List.mem_cons.1 hr' with rfl | hr'
      · exact ⟨g1, g2⟩
      · exact g4 r' hr'
  have e : arithmeticParse nw js fuel (p, m) =
      ((sayString ("p" ++ toString m ++ " tree number:" ++ toString a.2.length ++ "\n") >>= fun _ =>
        forEach (arithmeticTree nw js p) a.2) >>= fun _ => (pure () : Act V Unit)) := by
    rw [arithmeticParse, h1, forEach, forEach, treesAt, need_ok h2]
  rw [e]
  refine ((Does.say _).seq (key _ h)).seq (fun v hv => ⟨[], v, rfl, hv, rfl⟩ : Does Ok _ (· = [])) |>.imp ?_
  rintro o ⟨x, y, ⟨x', y', rfl, ⟨rs, g1, g2, rfl⟩, rfl⟩, rfl, rfl⟩
  refine ⟨rs, ?_, g2, ?_⟩
  · rintro rfl
    exact hne (List.length_eq_zero_iff.1 g1.symm)
  · rw [List.append_nil, FoundCalc.text, utf8_append _ (String.join _), ← g1]

theorem does_parses {fuel : Nat} {ps : List Parsed} {groups : List ((Nat × Nat) × List Node)}
    (hrel : Rel2 (fun p a => p.text = text ∧ p.env.tokens = toks.drop a.1.1 ∧ p.env.starts ≠ [] ∧ (∃ s, p.res.finals = [s]) ∧
      treesOf fuel true p = .ok a.2) ps groups)
    (h : ∀ a ∈ groups, a.2 ≠ [] ∧ ∀ n ∈ a.2, ∃ S, CalcTree ws nw text toks a.1.1 S a.1.2 n) (m : Nat) :
    Does Ok (forEach (arithmeticParse nw js fuel) (ps.zipIdx m)) (fun o => ∃ fs : List FoundCalc,
      fs.map (fun f => (f.first, f.len)) = groups.map (·.1) ∧
      (∀ f ∈ fs, f.readings ≠ [] ∧ ∀ r ∈ f.readings, ReadsAs ((ws.drop f.first).take f.len) r.1 ∧ WritesInt r.2 r.1.value) ∧
      o = utf8 (String.join ((fs.zipIdx m).map fun f => f.1.text f.2))) := by
  induction hrel generalizing m with
  | nil => exact fun v hv => ⟨[], v, rfl, hv, [], rfl, by simp, by rw [List.zipIdx_nil]; decide +kernel⟩
  | @cons p a ps groups h1 _ ih =>
    obtain ⟨g1, g2, g3, -, g5⟩ := h1
    obtain ⟨g6, g7⟩ := h a List.mem_cons_self
    rw [List.zipIdx_cons, forEach]
    refine (Does.seq (does_parse hjs hfit (m := m) g1 g2 g3 g5 g6 g7) (ih (fun b hb => h b (List.mem_cons_of_mem _ hb)) (m + 1))).imp ?_
    rintro o ⟨x, y, ⟨rs, k1, k2, rfl⟩, ⟨fs, k3, k4, rfl⟩, rfl⟩
    refine ⟨⟨a.1.1, a.1.2, rs⟩ :: fs, by simp [k3], ?_, by rw [List.zipIdx_cons, List.map_cons, utf8_join_cons]⟩
    intro f hf
    rcases List.mem_cons.1 hf with rfl | hf
    · exact ⟨k1, k2⟩
    · exact k4 f hf

theorem does_line {w : World} {g : Gram} {fuel : Nat} {groups : List ((Nat × Nat) × List Node)} (hlen : ws.length = toks.length)
    (hg : GreedyMatches (CalcSpan ws) (CalcTree ws nw text toks) ["number"] toks.length groups)
    (hps : ParseGroups w g fuel "" text ["number"] toks groups) :
    Does Ok (arithmeticLine w nw js g fuel text) (CalcAnswer ws text) := by
  obtain ⟨ps, h1, h2⟩ := hps
  have h3 := does_parses hjs hfit h2 (fun a ha => ⟨(hg.nonempty a ha).2, fun n hn => by
    obtain ⟨S, -, h, -⟩ := hg.trees a ha n hn
    exact ⟨S, h⟩⟩) 0
  have e : arithmeticLine w nw js g fuel text = (say (text ++ utf8 "\n") >>= fun _ =>
      (forEach (arithmeticParse nw js fuel) ps.zipIdx >>= fun _ => sayString "\n")) := by
    rw [arithmeticLine, need_ok h1]
  rw [e]
  refine ((Does.say _).seq (h3.seq (Does.say _))).imp ?_
  rintro o ⟨x, y, rfl, ⟨x', y', ⟨fs, k1, k2, rfl⟩, rfl, rfl⟩, rfl⟩
  have hat : ∀ i k, CalcAt ws i k ↔ SpanMatch (CalcSpan ws) ["number"] toks.length i k := by
    intro i k
    refine ⟨fun ⟨g1, c, g2⟩ => ⟨?_, by omega, _, List.mem_singleton.2 rfl, c, g2⟩, fun ⟨_, g1, _, _, g2⟩ => ⟨by omega, g2⟩⟩
    have := reads_pos g2
    rw [List.length_take, List.length_drop] at this
    omega
  have hmem : ∀ f ∈ fs, ∃ a ∈ groups, a.1 = (f.first, f.len) := by
    intro f hf
    have := List.mem_map_of_mem (f := fun f : FoundCalc => (f.first, f.len)) hf
    rw [k1] at this
    exact List.mem_map.1 this
  have hmem' : ∀ a ∈ groups, ∃ f ∈ fs, (f.first, f.len) = a.1 := by
    intro a ha
    have := List.mem_map_of_mem (f := fun a : (Nat × Nat) × List Node => a.1) ha
    rw [← k1] at this
    exact List.mem_map.1 this
  refine ⟨fs, ⟨?_, fun f hf => ?_, fun i k hi hk => ?_, fun f hf => (k2 f hf).1, fun f hf => (k2 f hf).2⟩, ?_⟩
  · have := hg.disjoint
    rw [← k1, List.pairwise_map] at this
    exact this
  · obtain ⟨a, ha, e⟩ := hmem f hf
    obtain ⟨g1, g2⟩ := hg.longest a ha
    rw [e] at g1 g2
    exact ⟨(hat _ _).2 g1, fun k hk => g2 k ((hat _ _).1 hk)⟩
  · refine hg.rest i k (fun a ha hik => ?_) ((hat _ _).1 hk)
    obtain ⟨f, hf, e⟩ := hmem' a ha
    rw [← e] at hik
    exact hi f hf hik
  · rw [utf8_append, utf8_append]
    simp [List.append_assoc]

end

end Fmr
