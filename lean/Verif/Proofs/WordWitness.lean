import Verif.Proofs.OneFile
import Verif.Props.NumberZhWitness

/-!
# Settings in which the assumptions about grammars of one file and texts of words hold
-/

namespace Fmr

/-- ASCII only -/
def wordLex (hash : RuleBody → Option Nat) : LexWorld := { asciiLex with isSpace := isSp, hash := hash }

theorem wordLex_ok (hash : RuleBody → Option Nat) : (wordLex hash).OK := by
  have hs : ∀ {c : Char}, asciiLex.isSpace c = false → isSp c = false := by
    intro c h
    have h : (c == ' ' || c == '\t' || c == '\n' || c == '\r') = false := h
    simp only [Bool.or_eq_false_iff] at h
    simp [isSp, h]
  exact ⟨asciiLex_ok.1, fun c h => hs (asciiLex_ok.2 c h), fun c h => hs (asciiLex_ok.3 c h),
    fun c h => ⟨(asciiLex_ok.4 c h).1, (asciiLex_ok.4 c h).2.1, hs (asciiLex_ok.4 c h).2.2⟩, asciiLex_ok.5, asciiLex_ok.6,
    by show ∀ c ∈ [' ', '\t', '\n'], isSp c = true; decide, ⟨asciiLex_ok.8.1, asciiLex_ok.8.2.1, hs asciiLex_ok.8.2.2⟩⟩

theorem wordLex_plain (hash : RuleBody → Option Nat) : PlainLex (wordLex hash) [] :=
  ⟨wordLex_ok hash, zhLex_plain.capitals, zhLex_plain.ints, fun s q h => by cases h⟩

theorem wordLex_spaces (hash : RuleBody → Option Nat) (l : List Char) : PlainText (wordLex hash) l := fun _ _ h => h

/-- the alternatives of the grammar have different hashes -/
theorem wordLex_apart {hash : RuleBody → Option Nat} {parts : List String} {ds : List Def} {text : List Char}
    (hparts : PartsRead [] parts ds) (htext : text = (parts.map String.toList).flatten)
    (h : ∀ b ∈ ds.flatMap (·.bodies), ∀ b' ∈ ds.flatMap (·.bodies), hash b = hash b' → b = b') : HashesApart (wordLex hash) text := by
  intro ds' ρ h1 d hd b hb d' hd' b' hb' e
  have hsyn : FileSyn (wordLex hash) text ds [] := by
    rw [htext]
    exact .defs (hparts.sound (wordLex_plain hash) (wordLex_spaces hash _))
  obtain rfl := (C80_unique (wordLex_ok hash) (by rw [htext]; exact hparts.clean) h1 hsyn).1
  exact h _ (List.mem_flatMap.2 ⟨d, hd, hb⟩) _ (List.mem_flatMap.2 ⟨d', hd', hb'⟩) e

/-- tokens with these texts -/
def wordTokens (ws : List String) : List Token :=
  ws.zipIdx.map fun p => { text := p.1, type := .otherTok, startByte := p.2, endByte := p.2 + 1, i := p.2 }

/-- the grammar file is the only one -/
def wordLoad (hash : RuleBody → Option Nat) (splits : List (String × List String)) (text : List Char) : LoadWorld :=
  { noFiles (wordLex hash) with
    ref := { annot := fun s => some (wordTokens (splitIn splits s)), ascii := id, hash := fun _ => some 0 }
    read := fun _ => some text
    dir := fun _ => some "." }

theorem wordTokens_text (ws : List String) : (wordTokens ws).map (·.text) = ws := by
  rw [wordTokens, List.map_map]
  exact List.zipIdx_map_fst 0 ws

theorem wordTokens_type {ws : List String} {t : Token} (h : t ∈ wordTokens ws) : t.type = .otherTok := by
  obtain ⟨p, -, rfl⟩ := List.mem_map.1 h
  rfl

theorem wordTokens_words (ws : List String) : (wordTokens ws).filter (fun a => a.type ≠ .space) = wordTokens ws := by
  refine List.filter_eq_self.2 fun t h => ?_
  rw [wordTokens_type h]
  rfl

theorem wordTokens_get {ws : List String} {k : Nat} {t : Token} (h : (wordTokens ws)[k]? = some t) :
    t.i = k ∧ t.startByte = k ∧ t.endByte = k + 1 ∧ k < ws.length := by
  rw [wordTokens, List.getElem?_map, List.getElem?_zipIdx, Option.map_map, Option.map_eq_some_iff] at h
  obtain ⟨c, hc, rfl⟩ := h
  have := (List.getElem?_eq_some_iff.1 hc).1
  exact ⟨by simp, by simp, by simp, this⟩

theorem wordTokens_sorted (ws : List String) : (wordTokens ws).Pairwise (fun a b => a.endByte ≤ b.startByte) := by
  rw [List.pairwise_iff_getElem]
  intro i j hi hj hij
  have h1 := wordTokens_get (List.getElem?_eq_getElem hi)
  have h2 := wordTokens_get (List.getElem?_eq_getElem hj)
  omega

theorem wordLoad_splits {hash : RuleBody → Option Nat} {splits : List (String × List String)} {text : List Char}
    (h : KeysNodup splits) : SplitsAs (wordLoad hash splits text).ref.annot splits := by
  intro p hp
  refine ⟨_, rfl, ?_⟩
  rw [wordTokens_words, wordTokens_text, splitIn, h.lookup.mpr hp]
  rfl

theorem wordLoad_file {hash : RuleBody → Option Nat} {splits : List (String × List String)} {parts : List String} {ds : List Def}
    {text : List Char} (hparts : PartsRead [] parts ds) (htext : text = (parts.map String.toList).flatten)
    (hh : ∀ b, hash b ≠ none)
    (h : ∀ b ∈ ds.flatMap (·.bodies), ∀ b' ∈ ds.flatMap (·.bodies), hash b = hash b' → b = b') (file : String) :
    HasFile (wordLoad hash splits text) file text :=
  ⟨wordLex_plain hash, wordLex_spaces hash text, rfl, by simp [wordLoad], hh, wordLex_apart hparts htext h⟩

/-- the document of these words -/
def wordDoc (ws : List String) : Doc := { text := ws.map fun _ => 65, tokens := wordTokens ws, spans := [] }

theorem wordDoc_words (ws : List String) : (wordDoc ws).words = wordTokens ws := wordTokens_words ws

/-- texts are annotated as this document -/
def wordWorld (ws : List String) : World :=
  { trim := id, annotate := fun _ => some (wordDoc ws), ctxTagger := "", annotateCtx := fun _ _ => none, hash := fun _ => some 0,
    find := fun _ _ => none, lower := id, registry := fun _ => none, ord := fun _ _ _ _ l => l }

theorem wordDoc_no {ws : List String} {find : String → Bytes → Option (List (Nat × Nat))} {A : String} {b : RuleBody} :
    ¬ DocAlt find (fun _ _ => False) (wordDoc ws) A b := by
  intro h
  cases h with
  | word h1 h2 => rw [wordTokens_type h1] at h2; cases h2
  | punct h1 h2 => rw [wordTokens_type h1] at h2; cases h2
  | symbol h1 h2 => rw [wordTokens_type h1] at h2; cases h2
  | letters h1 h2 => rw [wordTokens_type h1] at h2; cases h2
  | tag h1 => cases h1
  | values h1 => cases h1
  | regexp h1 => exact h1

theorem wordWorld_ok {ws names : List String} (h : ws ≠ []) (hg : "ɣ" ∉ ws) :
    HasWords (wordWorld ws) "" (wordDoc ws).text (wordDoc ws) ws names := by
  have hw := wordDoc_words ws
  refine ⟨⟨?_, .plain rfl, ?_⟩, ⟨⟨fun k t h => (wordTokens_get h).1, wordTokens_sorted ws, fun t h => ?_⟩, ?_, ?_, ?_, ?_, ?_⟩, ?_, ?_, ?_, ?_⟩
  · simpa [wordWorld, wordDoc] using h
  · obtain ⟨c, l, rfl⟩ := List.exists_cons_of_ne_nil h
    exact ⟨_, List.mem_cons_self, by simp⟩
  · obtain ⟨k, hk⟩ := List.mem_iff_getElem?.1 h
    have := wordTokens_get hk
    omega
  · intro sp h; cases h
  · intro sp h; cases h
  · exact fun A rb h => absurd h wordDoc_no
  · exact fun A a b h => absurd h wordDoc_no
  · exact fun k s s' h => h.elim
  · rw [hw]
    refine ⟨fun t h => ?_, wordTokens_sorted ws⟩
    obtain ⟨k, hk⟩ := List.mem_iff_getElem?.1 h
    have := wordTokens_get hk
    simp only [wordDoc, List.length_map]
    omega
  · rw [hw, wordTokens_text]
  · exact fun A b h => absurd h wordDoc_no
  · intro t ht e
    obtain ⟨p, hp, rfl⟩ := List.mem_map.1 ht
    have e : p.1 = "ɣ" := e
    exact hg (e ▸ List.fst_mem_of_mem_zipIdx hp)

end Fmr
