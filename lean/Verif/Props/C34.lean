import Verif.Lemmas.NodeMirror
import Verif.Props.C04

/-!
# C34: lists of commands and forests of nodes
-/

namespace Carcara

/-- **C34.** Converting a well-formed proof into a forest and back gives the proof, but for the context ids of its subproofs: neither
conversion panics, the second ends, and its result has the same commands with the same identifiers, clauses, rules, arguments,
premises and discharged assumptions in the same order. -/
theorem c34_roundtrip {proof : List Command} (hwf : Command.wfL proof = true) (hsc : ∀ F Γ s, Occ proof F Γ (.step s) → s.wellScoped F) :
    ∃ forest k, listToNodes proof = .ok forest ∧ ∀ m, k ≤ m → nodesToList m forest = .ok (some (Command.eraseCtxL proof)) := by
  obtain ⟨ns, out, next, hns, -, -, -, hw⟩ := commands_roundtrip proof [] {} 0
    ⟨by intro d f i n hf hn; rcases d with _ | d <;> simp at hf; subst hf; simp at hn,
      by intro d f n hf hn; rcases d with _ | d <;> simp at hf; subst hf; simp at hn,
      by intro d f i n d' f' i' n' hf hn; rcases d with _ | d <;> simp at hf; subst hf; simp at hn⟩ hwf (scopedL_proof hsc) (by simp)
  obtain ⟨seen, did, hr, -⟩ := hw [] [] [] [] []
    (by intro d f i n hf hn; rcases d with _ | d <;> simp at hf; subst hf; simp at hn) (by intro a h; simp [mapGet] at h) (by simp) rfl rfl
  obtain ⟨k, hk⟩ := LState.run_of_reach hr rfl
  refine ⟨ns, k, by rw [listToNodes, hns]; rfl, fun m hm => ?_⟩
  have := hk m hm
  simpa [nodesToList] using this

/-- **C34.** In particular for proofs that have been read from proof texts. -/
theorem c34_parsed_roundtrip {rs : List RawCommand} {proof : List Command} (h : parseProof rs = .ok proof) :
    ∃ forest k, listToNodes proof = .ok forest ∧ ∀ m, k ≤ m → nodesToList m forest = .ok (some (Command.eraseCtxL proof)) :=
  c34_roundtrip (c04_parse_wf h) fun _ _ _ => c04_parse_scoped h

/-- **C34.** The forest of a well-formed proof mirrors it: nodes have the contents of their commands, premises are the nodes of the commands
referred to, closing steps know the node before them, subproofs know the nodes of their commands and those outside that they use. -/
theorem c34_mirrors {proof : List Command} {forest : List ANode} (hwf : Command.wfL proof = true)
    (hsc : ∀ F Γ s, Occ proof F Γ (.step s) → s.wellScoped F) (h : listToNodes proof = .ok forest) : MirrorsL [] [] proof forest := by
  rw [listToNodes, bind_ok] at h
  obtain ⟨⟨f, next⟩, hf, h⟩ := h
  cases h
  obtain ⟨ns, e, hm, -⟩ := commands_mirror proof [] {} 0 f next []
    ⟨by intro d f i n hf hn; rcases d with _ | d <;> simp at hf; subst hf; simp at hn,
      by intro d f n hf hn; rcases d with _ | d <;> simp at hf; subst hf; simp at hn,
      by intro d f i n d' f' i' n' hf hn; rcases d with _ | d <;> simp at hf; subst hf; simp at hn⟩ hwf (scopedL_proof hsc) (by simp) hf
    ⟨by simp, by simp⟩
  simp only [List.nil_append] at e
  subst e
  exact hm

namespace C34

def a : Term := .var "a" .bool
def b : Term := .var "b" .bool

/-- A subproof in a subproof; steps refer to both enclosing levels, and a command is referred to twice. -/
def text : List RawCommand :=
  [.assume "h1" a,
   .anchor "t1" [],
   .assume "t1.h1" b,
   .anchor "t1.t2" [.var "x" .int],
   .step { id := "t1.t2.t1", clause := [a], rule := "resolution", premises := ["h1", "t1.h1", "h1"] },
   .step { id := "t1.t2", clause := [a], rule := "bind" },
   .step { id := "t1", clause := [.op .not [b], a], rule := "subproof", discharge := ["t1.h1"] },
   .step { id := "t2", clause := [], rule := "resolution", premises := ["t1", "h1"] }]

def proof : List Command :=
  [.assume "h1" a,
   .subproof
     [.assume "t1.h1" b,
      .subproof
        [.step { id := "t1.t2.t1", clause := [a], rule := "resolution", premises := [(0, 0), (1, 0), (0, 0)] },
         .step { id := "t1.t2", clause := [a], rule := "bind" }] [.var "x" .int] 1,
      .step { id := "t1", clause := [.op .not [b], a], rule := "subproof", discharge := [(1, 0)] }] [] 0,
   .step { id := "t2", clause := [], rule := "resolution", premises := [(0, 1), (0, 0)] }]

end C34

/-- The hypotheses are met by a proof with nested subproofs. -/
example : parseProof C34.text = .ok C34.proof := by decide_cbv

/-- The conversions of this proof, computed. -/
example : (do let f ← listToNodes C34.proof; nodesToList 40 f) = .ok (some (Command.eraseCtxL C34.proof)) := by decide_cbv

/-- **C34, refuted as first stated.** The context ids of subproofs are lost: that of the inner subproof here changes from one to zero. -/
theorem c34_context_ids_fails : ∃ rs proof forest result, parseProof rs = .ok proof ∧ listToNodes proof = .ok forest ∧
    nodesToList 40 forest = .ok (some result) ∧ result ≠ proof := by
  have h : parseProof C34.text = .ok C34.proof := by decide_cbv
  obtain ⟨forest, k, hf, -⟩ := c34_parsed_roundtrip h
  refine ⟨_, _, forest, Command.eraseCtxL C34.proof, h, hf, ?_, by decide_cbv⟩
  have : (do let f ← listToNodes C34.proof; nodesToList 40 f) = .ok (some (Command.eraseCtxL C34.proof)) := by decide_cbv
  rw [hf] at this
  exact this

end Carcara
