import Verif.Model.LiaInstances
import Verif.Lemmas.LiaProblem
import Verif.Lemmas.ProofParser

/-!
# Which problems are written for `lia_generic`, and how they are read
-/

namespace Carcara
open PRes Reader

/-! ## Which steps -/

/-- The steps with the rule `lia_generic` that are in no subproof, in order. -/
def topLia (cs : List Command) : List Step := cs.filterMap fun
  | .step s => if s.rule = "lia_generic" then some s else none
  | _ => none

/-- The steps for which a problem is written, among the commands that the iterator returns. -/
def liaVisit : Command × Iter → Option Step
  | (.step s, it) => if s.rule = "lia_generic" ∧ ¬ 0 < it.depth then some s else none
  | _ => none

theorem liaLoop_visits (share : Step → List Term → Term → Bool) (Q : Problem) (k : Nat) : ∀ it : Iter, it.remaining ≤ k →
    liaLoop share Q it = mapRes (fun s => do let t ← liaInstance (share s) Q s.clause; .ok (s.id, t)) (it.visits.filterMap liaVisit) := by
  induction k with
  | zero =>
    intro it hk
    rw [liaLoop.eq_def]
    split
    · next e => rw [Iter.visits_none e]; rfl
    · next e =>
      have := Iter.next_remaining _ _ _ e
      omega
    · next e =>
      have := Iter.next_remaining _ _ _ e
      omega
  | succ k ih =>
    intro it hk
    rw [liaLoop.eq_def]
    split
    · next e => rw [Iter.visits_none e]; rfl
    · next s it' e =>
      have := Iter.next_remaining _ _ _ e
      rw [Iter.visits_some e]
      split
      · next hc =>
        rw [List.filterMap_cons_some (b := s) (by simp only [liaVisit, if_pos hc]), mapRes, ih it' (by omega)]
        cases liaInstance (share s) Q s.clause <;> rfl
      · next hc =>
        rw [List.filterMap_cons_none (by simp only [liaVisit, if_neg hc]), ih it' (by omega)]
    · next c it' hne e =>
      have := Iter.next_remaining _ _ _ e
      rw [Iter.visits_some e, List.filterMap_cons_none, ih it' (by omega)]
      cases c with
      | step s => exact absurd rfl (hne s)
      | _ => rfl

theorem liaVisit_inner {o : Pos} (h : 2 ≤ o.frames.length) : liaVisit (o.cmd, o.iter) = none := by
  obtain ⟨F, Γ, c⟩ := o
  cases c with
  | step s =>
    rw [liaVisit, if_neg]
    rintro ⟨-, hd⟩
    simp only [Pos.iter, Frames.iter, Iter.depth, List.length_map] at hd
    simp only at h
    omega
  | _ => rfl

mutual
theorem positions_frames (F : Frames) (Γ : List (List AnchorArg)) : ∀ c : Command, ∀ o ∈ positions F Γ c, F.length ≤ o.frames.length
  | .subproof cs as n, o, h => by
    rw [positions, List.mem_cons] at h
    rcases h with rfl | h
    · exact Nat.le_refl _
    · have := positionsL_frames F (Γ ++ [as]) cs 0 cs o h
      omega
  | .assume _ _, o, h => by rw [positions] at h; rw [List.mem_singleton.1 h]; simp
  | .step _, o, h => by rw [positions] at h; rw [List.mem_singleton.1 h]; simp
theorem positionsL_frames (F : Frames) (Γ : List (List AnchorArg)) (cs : List Command) : ∀ (i : Nat) (l : List Command), ∀ o ∈ positionsL F Γ cs i l,
    F.length + 1 ≤ o.frames.length
  | i, [], o, h => by rw [positionsL] at h; cases h
  | i, c :: l, o, h => by
    rw [positionsL, List.mem_append] at h
    rcases h with h | h
    · exact positions_frames ((i, cs) :: F) Γ c o h
    · exact positionsL_frames F Γ cs (i + 1) l o h
end

theorem liaVisits_top (cs : List Command) : ∀ (l : List Command) (i : Nat),
    ((positionsL [] [] cs i l).map fun o => (o.cmd, o.iter)).filterMap liaVisit = topLia l
  | [], i => by rw [positionsL]; rfl
  | c :: l, i => by
    rw [positionsL, List.map_append, List.filterMap_append, liaVisits_top cs l (i + 1)]
    cases c with
    | assume _ _ => simp only [positions]; rfl
    | step s =>
      simp only [positions]
      by_cases hs : s.rule = "lia_generic" <;> simp [liaVisit, topLia, hs, Pos.iter, Frames.iter, Iter.depth]
    | subproof ds as n =>
      rw [positions, List.map_cons, List.filterMap_cons_none rfl]
      have : (List.map (fun o : Pos => (o.cmd, o.iter)) (positionsL [(i, cs)] ([] ++ [as]) ds 0 ds)).filterMap liaVisit = [] := by
        rw [List.filterMap_eq_nil_iff]
        intro v hv
        obtain ⟨o, ho, rfl⟩ := List.mem_map.1 hv
        exact liaVisit_inner (by have := positionsL_frames _ _ _ _ _ o ho; simpa using this)
      rw [this]
      rfl

theorem liaInstances_eq (share : Step → List Term → Term → Bool) (Q : Problem) (P : ParsedProof) :
    liaInstances share Q P = mapRes (fun s => do let t ← liaInstance (share s) Q s.clause; .ok (s.id, t)) (topLia P.commands) := by
  rw [liaInstances, liaLoop_visits share Q _ _ (Nat.le_refl _), visits_start, allPositions, liaVisits_top]

theorem Parses.unique_ids {V e pre n raws cs n'} (h : Parses V e pre n raws cs n') : UniqueIds (pre :: V) → UniqueIds ((pre ++ cs) :: V) := by
  induction h with
  | nil => intro hu; simpa using hu
  | assume _ hf _ _ ih => intro hu; simpa using ih (hu.add rfl hf)
  | @step V e pre n r s rs cs n' _ hf hres _ ih =>
    intro hu; simpa using ih (hu.add (c := .step s) (by simp [Command.id, hres.1]) hf)
  | @subproof V e pre n as r s inner sub n₁ rs cs n' _ _ hf hres _ _ ih =>
    intro hu
    simpa using ih (hu.add (c := .subproof (sub ++ [.step s]) as n) (by rw [Command.id, idLast_concat, hres.1]) hf.pop)

/-- The ids of these steps are different. -/
theorem topLia_distinct {rs : List RawCommand} {cs : List Command} (h : parseProof rs = .ok cs) : ((topLia cs).map (·.id)).Nodup := by
  obtain ⟨n, hp⟩ := parseProof_iff.1 h
  have hu := hp.unique_ids (by
    intro k p q h1
    rw [denotes_cons] at h1
    rcases h1 with ⟨L, c, h1, -⟩ | ⟨-, c, h1, -⟩ <;> simp at h1)
  rw [List.nil_append] at hu
  have hu' : ∀ (i j : Nat) (s t : Step), cs[i]? = some (.step s) → cs[j]? = some (.step t) → s.id = t.id → i = j := by
    intro i j s t hi hj e
    exact congrArg Prod.snd (hu s.id (0, i) (0, j) ⟨cs, _, rfl, hi, rfl⟩ ⟨cs, _, rfl, hj, by rw [e]; rfl⟩)
  clear hu hp h
  induction cs with
  | nil => exact List.nodup_nil
  | cons c cs ih =>
    have ih := ih fun i j s t hi hj e => by
      have := hu' (i + 1) (j + 1) s t hi hj e
      omega
    cases c with
    | step s =>
      by_cases hs : s.rule = "lia_generic"
      · have e : topLia (.step s :: cs) = s :: topLia cs := by simp [topLia, hs]
        rw [e, List.map_cons, List.nodup_cons]
        refine ⟨fun hm => ?_, ih⟩
        obtain ⟨t, ht, e⟩ := List.mem_map.1 hm
        have : .step t ∈ cs := by
          obtain ⟨c, hc, hct⟩ := List.mem_filterMap.1 ht
          cases c with
          | step u =>
            simp only at hct
            split at hct
            · cases hct; exact hc
            · cases hct
          | _ => cases hct
        obtain ⟨j, hj⟩ := List.mem_iff_getElem?.1 this
        have := hu' 0 (j + 1) s t rfl hj e.symm
        omega
      · have e : topLia (.step s :: cs) = topLia cs := by simp [topLia, hs]
        rw [e]
        exact ih
    | _ => exact ih

/-! ## Text -/

/-- The tokens of a problem, line by line. -/
def instanceLines (S : Sharing) (Q : Problem) (clause : List Term) : List (List Token) :=
  logicTokens (Q.logic.getD "ALL") :: (Q.sorts.map sortDeclarationTokens ++ Q.functions.map funDeclarationTokens) ++
    negatedShared S (dedupNext clause) [] ++ [parens [[.symbol "check-sat"]], parens [[.symbol "exit"]]]

theorem text_instance {share : List Term → Term → Bool} (hS : Sharing.OK ⟨"p_", share⟩) {E : PEnv} {Q : Problem} {clause : List Term} (hl : ∀ l ∈ Q.logic, PlainName l) (hs : ∀ d ∈ Q.sorts, Readable d.1)
    (hf : ∀ d ∈ Q.functions, Readable d.1 ∧ d.2.Declarable E) (hc : ∀ l ∈ clause, l.Readable []) :
    ∃ text, liaInstance share Q clause = .ok text ∧ ∃ rest, LexesTo text (instanceLines ⟨"p_", share⟩ Q clause).flatten rest ∧
      nextToken rest = .ok (.eof, []) := by
  obtain ⟨o1, e1, t1⟩ := readsL_map (f := printSortDeclaration) (g := sortDeclarationTokens) (as := Q.sorts) fun d hd => reads_sortDeclaration (hs d hd)
  obtain ⟨o2, e2, t2⟩ := readsL_map (f := printFunDeclaration) (g := funDeclarationTokens) (as := Q.functions) fun d hd =>
    reads_funDeclaration (hf d hd).1 (hf d hd).2
  obtain ⟨o3, e3, t3⟩ := reads_negatedShared hS (ls := dedupNext clause) (fun d hd => hc d (mem_dedupNext.1 hd)) []
  have h0 : PlainName (Q.logic.getD "ALL") := by
    cases hq : Q.logic with
    | some l => exact hl l hq
    | none => exact ⟨by decide, by decide +kernel, by decide +kernel, fun h => by rw [looksNegative_iff] at h; revert h; decide +kernel, fun r => by cases r <;> decide +kernel⟩
  have h1 : Text ("(set-logic ".toList ++ (Q.logic.getD "ALL").toList ++ [')']) (logicTokens (Q.logic.getD "ALL")) := by
    have := text_parens (out := "set-logic".toList) (ts := [.reserved .setLogic]) (text_word (by decide +kernel)) (.cons (text_plain h0) .nil)
    simpa [logicTokens, tailChars] using this
  refine ⟨_, bind_ok.2 ⟨_, bind_ok.2 ⟨o1, e1, bind_ok.2 ⟨o2, e2, rfl⟩⟩, bind_ok.2 ⟨o3, e3, rfl⟩⟩, ?_⟩
  have ht := lexes_lines (List.rel_append (List.rel_append (.cons h1 (List.rel_append t1 t2)) t3)
    (.cons (text_single (s := "check-sat") (by decide +kernel)) (.cons (text_single (s := "exit") (by decide +kernel)) .nil)))
  simpa [joinLines, instanceLines] using ht

/-! ## Reading -/

section
variable {apply : Bool} {S : Sharing} {E : PEnv}

/-- The whole problem. -/
theorem readInstance68 {Q : Problem} {clause : List Term} (hE : PlainEnv E) (hl : realOnlyLogic (Q.logic.getD "ALL") = false)
    (hs : ∀ d ∈ Q.sorts, d.2 < 2 ^ 64) (hf : ∀ d ∈ Q.functions, d.2.Declarable (E.declaring Q.sorts []))
    (hc : ∀ l ∈ clause, ReadsShared S true [] (E.declaring Q.sorts Q.functions) l ∧ sortOf l = some .bool ∧ l.smallWidths) {n : Nat}
    (hn : 3 * (instanceLines S Q clause).flatten.length + 1 ≤ n) :
    ∃ E' ps F', readProblemCommands apply n E {} ⟨(instanceLines S Q clause).flatten, []⟩ =
        .ok ((E', { logic := some (Q.logic.getD "ALL"), sorts := Q.sorts, functions := Q.functions, premises := ps }), ⟨[], F'⟩) ∧
      ∀ u, u ∈ ps ↔ ∃ l ∈ clause, u = .op .not [l.standard] := by
  have len : ∀ {α : Type} (g : α → List Token) (as : List α), (∀ a, 1 ≤ (g a).length) → as.length ≤ (as.map g).flatten.length := by
    intro α g as hg
    induction as with
    | nil => simp
    | cons a as ih =>
      have := hg a
      simp only [List.length_cons, List.map_cons, List.flatten_cons, List.length_append]
      omega
  have l1 := len sortDeclarationTokens Q.sorts fun a => by simp [sortDeclarationTokens, parens]
  have l2 := len funDeclarationTokens Q.functions fun a => by simp [funDeclarationTokens, parens]
  have l3 : ∀ (ls L : List Term), ls.length ≤ (negatedShared S ls L).flatten.length := by
    intro ls
    induction ls with
    | nil => simp
    | cons l ls ih =>
      intro L
      have := ih (l.sharedTokens S true L).2
      simp only [negatedShared, List.length_cons, List.flatten_cons, List.length_append, parens_length]
      omega
  have l3 := l3 (dedupNext clause) []
  have et : (instanceLines S Q clause).flatten = logicTokens (Q.logic.getD "ALL") ++ ((Q.sorts.map sortDeclarationTokens).flatten ++
      ((Q.functions.map funDeclarationTokens).flatten ++ ((negatedShared S (dedupNext clause) []).flatten ++ (parens [[.symbol "check-sat"]] ++
      (parens [[.symbol "exit"]] ++ []))))) := by
    simp [instanceLines]
  rw [et] at hn ⊢
  simp only [List.length_append] at hn
  have l5 : 1 ≤ (logicTokens (Q.logic.getD "ALL")).length := by simp [logicTokens, parens]
  have l6 : 1 ≤ (parens [[Token.symbol "check-sat"]]).length := by decide
  have l8 : 1 ≤ (parens [[Token.symbol "exit"]]).length := by decide
  obtain ⟨m, rfl⟩ : ∃ m, n = m + 1 + 1 + (dedupNext clause).length + Q.functions.length + Q.sorts.length + 1 :=
    ⟨n - ((dedupNext clause).length + Q.functions.length + Q.sorts.length + 3), by omega⟩
  have eE : { E with intsAsReals := realOnlyLogic (Q.logic.getD "ALL") } = E := by
    rw [hl, ← hE.ints]
  have hE1 : PlainEnv (E.declaring Q.sorts []) := ⟨hE.strict, hE.ints⟩
  have hE2 : PlainEnv (E.declaring Q.sorts Q.functions) := ⟨hE.strict, hE.ints⟩
  have eD : (E.declaring Q.sorts []).declaring [] Q.functions = E.declaring Q.sorts Q.functions := by simp [PEnv.declaring]
  obtain ⟨F', er⟩ := readNegatedShareds (apply := apply) (S := S) (F0 := []) hE2 (ls := dedupNext clause) (L := []) (F := [])
    (Q := { logic := some (Q.logic.getD "ALL"), sorts := [] ++ Q.sorts, functions := [] ++ Q.functions }) (n := m + 1 + 1)
    (rest := parens [[.symbol "check-sat"]] ++ (parens [[.symbol "exit"]] ++ []))
    (fun l hl => hc l (mem_dedupNext.1 hl)) (fun k => ⟨fun j u hj => by simp at hj, fun _ _ => rfl⟩) (by omega)
  rw [readLogic, eE, readSortDeclarations hs, readFunDeclarations hE1 hf (by omega), eD]
  obtain ⟨ps, e, h⟩ := foldl_assert (ts := (dedupNext clause).map fun l => .op .not [l.standard])
    (Q := { logic := some (Q.logic.getD "ALL"), sorts := [] ++ Q.sorts, functions := [] ++ Q.functions })
  refine ⟨E.declaring Q.sorts Q.functions, ps, F', ?_, fun u => ?_⟩
  · refine er.trans ?_
    rw [readIgnored, readIgnored, readCommands63_nil (by omega)]
    exact congrArg (fun R => Except.ok ((E.declaring Q.sorts Q.functions, R), (⟨[], F'⟩ : ReadState))) e
  · rw [h, List.mem_map]
    constructor
    · rintro (h | ⟨l, hl, rfl⟩)
      · cases h
      · exact ⟨l, mem_dedupNext.1 hl, rfl⟩
    · rintro ⟨l, hl, rfl⟩
      exact .inr ⟨l, mem_dedupNext.2 hl, rfl⟩

end

end Carcara
