import Verif.Lemmas.Printer
import Verif.Lemmas.FileParserPrint
import Verif.Lemmas.Quantifier
import Verif.Model.ProofPrinter

/-!
# Written proofs consist of the tokens of the proof
-/

namespace Carcara

/-! ## Lines -/

theorem LexesTo.newline {cs rest : List Char} {ts : List Token} (h : LexesTo cs ts rest) (hne : ts ≠ []) : LexesTo ('\n' :: cs) ts rest := by
  cases h with
  | nil => exact absurd rfl hne
  | cons h ht h' => exact .cons (by rw [← h]; rfl) ht h'

theorem ends_newline (cs : List Char) : Ends ('\n' :: cs) := by simp [Ends]

/-- Lines, each with its end. -/
def joinLines (outs : List (List Char)) : List Char := outs.flatMap (· ++ ['\n'])

theorem lexes_lines {outs : List (List Char)} {tss : List (List Token)} (h : List.Forall₂ Text outs tss) :
    ∃ rest, LexesTo (joinLines outs) tss.flatten rest ∧ nextToken rest = .ok (.eof, []) := by
  induction h with
  | nil => exact ⟨[], .nil, by rfl⟩
  | @cons o ts outs tss h hs ih =>
    obtain ⟨rest, h1, h2⟩ := ih
    have h0 := h.2 ('\n' :: joinLines outs) (ends_newline _)
    have e : joinLines (o :: outs) = o ++ '\n' :: joinLines outs := by simp [joinLines]
    rw [e, List.flatten_cons]
    by_cases hne : tss.flatten = []
    · rw [hne, List.append_nil]
      have : tss = [] := by
        cases hs with
        | nil => rfl
        | cons h' _ =>
          simp only [List.flatten_cons, List.append_eq_nil_iff] at hne
          exact absurd hne.1 h'.1
      subst this
      cases hs
      exact ⟨_, h0, by rfl⟩
    · exact ⟨rest, h0.append (h1.newline hne), h2⟩

/-! ## The loop -/

theorem printLoop_visits (defs : List (Term × String)) (k : Nat) : ∀ it : Iter, it.remaining ≤ k → ∀ outs : List (List Char),
    mapRes (fun v : Command × Iter => printCommand defs v.2 v.1) it.visits = .ok outs → printLoop defs it = .ok (joinLines outs) := by
  induction k with
  | zero =>
    intro it hk outs h
    rw [printLoop.eq_def]
    split
    · next e =>
      rw [Iter.visits_none e] at h
      cases h
      rfl
    · next c it' e =>
      have := Iter.next_remaining _ _ _ e
      omega
  | succ k ih =>
    intro it hk outs h
    rw [printLoop.eq_def]
    split
    · next e =>
      rw [Iter.visits_none e] at h
      cases h
      rfl
    · next c it' e =>
      have := Iter.next_remaining _ _ _ e
      rw [Iter.visits_some e, mapRes] at h
      obtain ⟨o, h1, h⟩ := bind_ok.1 h
      obtain ⟨os, h2, h⟩ := bind_ok.1 h
      cases h
      exact bind_ok.2 ⟨o, h1, bind_ok.2 ⟨_, ih it' (by omega) os h2, by simp [joinLines]⟩⟩

/-! ## Commands as they are written -/

/-- The identifier of the command that a reference denotes. -/
def Frames.nameAt (F : Frames) (p : Nat × Nat) : String :=
  match F.lookup p with
  | some c => (match c.id with | .ok k => k | _ => "")
  | none => ""

/-- A command at a position, with names for references. -/
def Pos.raw (o : Pos) : RawCommand :=
  match o.cmd with
  | .assume id t => .assume id t
  | .step s => .step ⟨s.id, s.clause, s.rule, s.premises.map o.frames.nameAt, s.args, s.discharge.map o.frames.nameAt⟩
  | .subproof cs as _ => .anchor (match Command.idLast cs with | .ok k => k | _ => "") as

theorem Denotes.nameAt {F : Frames} {k : String} {p : Nat × Nat} (h : Denotes F.visible k p) :
    F.nameAt p = k ∧ ∃ c, F.lookup p = some c ∧ c.id = .ok k := by
  obtain ⟨j, cs, c, h1, -, h2, h3⟩ := h.scoped
  have : F.lookup p = some c := by simp [Frames.lookup, h1, h2]
  exact ⟨by simp [Frames.nameAt, this, h3], c, this, h3⟩

theorem denotes_names {F : Frames} : ∀ {names : List String} {ps : List (Nat × Nat)}, List.Forall₂ (Denotes F.visible) names ps →
    List.Forall₂ (Denotes F.visible) (ps.map F.nameAt) ps
  | _, _, .nil => .nil
  | _, _, .cons h hs => .cons (by rw [h.nameAt.1]; exact h) (denotes_names hs)

theorem Resolves.rename {F : Frames} {r : RawStep} {s : Step} (h : Resolves F.visible r s) (hu : s.unshadowed F) :
    Resolves F.visible ⟨s.id, s.clause, s.rule, s.premises.map F.nameAt, s.args, s.discharge.map F.nameAt⟩ s := by
  refine ⟨rfl, rfl, rfl, rfl, denotes_names h.2.2.2.2.1, ?_⟩
  have hd := h.2.2.2.2.2
  simp only [Step.unshadowed] at hu
  generalize s.discharge = ds at hd hu ⊢
  generalize r.discharge = ks at hd
  induction hd with
  | nil => exact .nil
  | @cons k p ks ps hk _ ih =>
    refine .cons (.inr ?_) (ih fun q hq => hu q (List.mem_cons_of_mem _ hq))
    have : ∃ k', Denotes F.visible k' p := by
      rcases hk with hk | hk
      · exact ⟨_, hk⟩
      · exact ⟨_, hk.2⟩
    obtain ⟨k', hk'⟩ := this
    obtain ⟨e, c, h1, h2⟩ := hk'.nameAt
    change FreshId F.visible (s.id ++ "." ++ F.nameAt p) ∧ Denotes F.visible (F.nameAt p) p
    rw [e]
    exact ⟨hu p (List.mem_cons_self ..) c k' h1 h2, hk'⟩

/-- A proof is described by its commands with these names. -/
theorem Parses.rename {V e pre n raws cs n'} (h : Parses V e pre n raws cs n') :
    ∀ (F : Frames) (Γ : List (List AnchorArg)) (post : List Command), F.visible = V →
    (∀ o ∈ positionsL F Γ (pre ++ cs ++ post) pre.length cs, ∀ s, o.cmd = .step s → s.unshadowed o.frames) →
    Parses V e pre n ((positionsL F Γ (pre ++ cs ++ post) pre.length cs).map Pos.raw) cs n' := by
  induction h with
  | nil => intro F Γ post _ _; exact .nil
  | @assume V e pre n id t rs cs n' hne hf hcond hrest ih =>
    intro F Γ post hV hu
    have := ih F Γ post hV
    rw [positionsL] at hu ⊢
    simp only [List.length_append, List.length_singleton, List.append_assoc, List.singleton_append] at this
    simp only [List.append_assoc, List.cons_append, Carcara.positions, List.nil_append, List.map_cons] at this hu ⊢
    exact .assume hne hf hcond (this fun o ho => hu o (List.mem_cons_of_mem _ ho))
  | @step V e pre n r s rs cs n' hne hf hres hrest ih =>
    intro F Γ post hV hu
    have := ih F Γ post hV
    rw [positionsL] at hu ⊢
    simp only [List.length_append, List.length_singleton, List.append_assoc, List.singleton_append] at this
    simp only [List.append_assoc, List.cons_append, Carcara.positions, List.nil_append, List.map_cons] at this hu ⊢
    have hvis : Frames.visible ((pre.length, pre ++ (Command.step s :: (cs ++ post))) :: F) = pre :: V := by
      simp [Frames.visible, ← hV]
    have h1 := Resolves.rename (by rw [hvis]; exact hres) (hu _ (List.mem_cons_self ..) s rfl)
    rw [hvis] at h1
    exact .step (by simpa [hres.1] using hne) (by simpa [hres.1] using hf) h1 (this fun o ho => hu o (List.mem_cons_of_mem _ ho))
  | @subproof V e pre n as r s inner sub n₁ rs cs n' hinner hne hf hres hrest ih1 ih2 =>
    intro F Γ post hV hu
    have hvis : ∀ l, Frames.visible ((pre.length, pre ++ l) :: F) = pre :: V := by
      intro l; simp [Frames.visible, ← hV]
    have hvis2 : Frames.visible ((sub.length, sub ++ [Command.step s]) ::
        (pre.length, pre ++ Command.subproof (sub ++ [.step s]) as n :: (cs ++ post)) :: F) = sub :: pre :: V := by
      simp [Frames.visible, ← hV]
    have h2 := ih2 F Γ post hV
    have h1 := ih1 ((pre.length, pre ++ (Command.subproof (sub ++ [.step s]) as n :: cs) ++ post) :: F) (Γ ++ [as])
      [.step s] (by rw [List.append_assoc]; exact hvis _)
    rw [positionsL, Carcara.positions, positionsL_append] at hu ⊢
    simp only [List.nil_append, List.length_nil] at h1
    simp only [List.length_append, List.length_singleton, List.append_assoc, List.singleton_append,
      List.cons_append, Nat.zero_add, List.nil_append, positionsL, Carcara.positions, List.map_cons, List.map_append] at h1 h2 hu ⊢
    have g1 := h1 fun o ho => hu o (by simp [ho])
    have g2 := h2 fun o ho => hu o (by simp [ho])
    have g3 := Resolves.rename (by rw [hvis2]; exact hres) (hu ⟨(sub.length, sub ++ [Command.step s]) ::
        (pre.length, pre ++ Command.subproof (sub ++ [.step s]) as n :: (cs ++ post)) :: F, Γ ++ [as], .step s⟩ (by simp) s rfl)
    rw [hvis2] at g3
    have e1 : Pos.raw ⟨(pre.length, pre ++ Command.subproof (sub ++ [.step s]) as n :: (cs ++ post)) :: F, Γ, .subproof (sub ++ [.step s]) as n⟩ =
        .anchor s.id as := by simp [Pos.raw, idLast_concat]
    rw [e1]
    refine .subproof (r := ⟨s.id, s.clause, s.rule, _, s.args, _⟩) ?_ hne ?_ g3 g2
    · simpa [hres.1] using g1
    · simpa [hres.1] using hf

/-- What is written for anchors, as a list of texts. -/
theorem reads_anchorArg {defs : List (Term × String)} {a : AnchorArg} (h : a.Readable defs) : Reads (printAnchorArg defs a) (a.tokens defs) := by
  cases a with
  | var x s =>
    obtain ⟨os, es, ts⟩ := reads_sort h.2
    obtain ⟨ob, eb, tb⟩ := reads_binding h.1 ts
    exact ⟨ob, bind_ok.2 ⟨os, es, eb⟩, tb⟩
  | assign x s v =>
    obtain ⟨os, es, ts⟩ := reads_sort h.2.1
    obtain ⟨ob, eb, tb⟩ := reads_binding h.1 ts
    obtain ⟨ov, ev, tv⟩ := reads_term false defs h.2.2
    exact ⟨_, bind_ok.2 ⟨os, es, bind_ok.2 ⟨ob, eb, bind_ok.2 ⟨ov, ev, rfl⟩⟩⟩, text_two (a := ":=".toList) (text_keyword "=" (by decide +kernel)) tb tv⟩

theorem reads_anchorArgs {defs : List (Term × String)} : ∀ {as : List AnchorArg}, (∀ a ∈ as, a.Readable defs) →
    ReadsL (mapRes (printAnchorArg defs) as) (as.map (AnchorArg.tokens defs))
  | [], _ => ⟨[], rfl, .nil⟩
  | a :: as, h => by
    obtain ⟨oa, ea, ta⟩ := reads_anchorArg (h a (by simp))
    obtain ⟨os, es, ts⟩ := reads_anchorArgs fun b hb => h b (List.mem_cons_of_mem _ hb)
    exact ⟨_, by rw [mapRes]; exact bind_ok.2 ⟨oa, ea, bind_ok.2 ⟨os, es, rfl⟩⟩, .cons ta ts⟩

theorem reads_anchor {defs : List (Term × String)} {id : String} {as : List AnchorArg} (hi : Readable id) (h : ∀ a ∈ as, a.Readable defs) :
    Reads (printAnchor defs id as) ((RawCommand.anchor id as).tokens defs) := by
  obtain ⟨oi, ei, ti⟩ := reads_name hi
  obtain ⟨oa, ea, ta⟩ := reads_anchorArgs h
  refine ⟨_, bind_ok.2 ⟨oi, ei, bind_ok.2 ⟨oa, ea, rfl⟩⟩, ?_⟩
  have := text_parens (out := "anchor".toList) (ts := [.reserved .anchor]) (text_word (by decide +kernel))
    (List.rel_append (.cons (text_keyword "step" (by decide +kernel)) (.cons ti .nil)) (text_attribute (key := "args") (by decide +kernel) ta))
  rw [RawCommand.tokens]
  have e := this
  beta_reduce at e
  rw [← List.append_nil (_ ++ attributeTexts "args" oa), ← tail_append] at e
  simp only [List.flatMap_append, ← stepAttribute_eq] at e
  simpa [tailChars] using e

/-! ## Names -/

theorem idLast_mem : ∀ {cs : List Command} {k : String}, Command.idLast cs = .ok k → ∃ (j : Nat) (c : Command), cs[j]? = some c ∧ c ∈ cs ∧ c.id = .ok k
  | [], _, h => by simp [Command.idLast, panic] at h
  | [c], k, h => ⟨0, c, rfl, by simp, by simpa [Command.idLast] using h⟩
  | _ :: c :: cs, k, h => by
    rw [Command.idLast] at h
    · obtain ⟨j, c', h1, h2, h3⟩ := idLast_mem h
      exact ⟨j + 1, c', h1, List.mem_cons_of_mem _ h2, h3⟩
    · simp

theorem Occ.frame {proof : List Command} {F : Frames} {Γ : List (List AnchorArg)} {c : Command} (h : Occ proof F Γ c) :
    ∀ f ∈ F, ∀ (i : Nat) (c' : Command), f.2[i]? = some c' → ∃ F' Γ', Occ proof F' Γ' c' := by
  induction h with
  | top hi =>
    intro f hf i c' h
    rw [List.mem_singleton] at hf
    subst hf
    exact ⟨_, _, .top h⟩
  | sub ho hj ih =>
    intro f hf i c' h
    rcases List.mem_cons.1 hf with rfl | hf
    · exact ⟨_, _, .sub ho h⟩
    · exact ih f hf i c' h

theorem Occ.lookup {proof : List Command} {F : Frames} {Γ : List (List AnchorArg)} {c c' : Command} {p : Nat × Nat} (h : Occ proof F Γ c)
    (hl : F.lookup p = some c') : ∃ F' Γ', Occ proof F' Γ' c' := by
  simp only [Frames.lookup, Option.bind_eq_bind, Option.bind_eq_some_iff] at hl
  obtain ⟨f, h1, h2⟩ := hl
  exact h.frame f (List.mem_reverse.1 (List.mem_of_getElem? h1)) _ _ h2

theorem Occ.readable_id {defs : List (Term × String)} {proof : List Command} (hr : ∀ F Γ c, Occ proof F Γ c → c.Readable defs) :
    ∀ (c : Command) (F : Frames) (Γ : List (List AnchorArg)) (k : String), Occ proof F Γ c → c.id = .ok k → Readable k
  | .subproof cs as n, F, Γ, k, ho, hc => by
    rw [Command.id] at hc
    obtain ⟨j, c, h1, h2, h3⟩ := idLast_mem hc
    have : sizeOf c < 1 + sizeOf cs + sizeOf as + sizeOf n := by
      have := List.sizeOf_lt_of_mem h2
      omega
    exact Occ.readable_id hr c _ _ k (.sub ho h1) h3
  | .assume id t, F, Γ, k, ho, hc => by
    cases hc
    exact (hr _ _ _ ho).1
  | .step s, F, Γ, k, ho, hc => by
    cases hc
    exact (hr _ _ _ ho).1

theorem writtenIds_ok {F : Frames} : ∀ {ps : List (Nat × Nat)}, (∀ p ∈ ps, ∃ k, Denotes F.visible k p) →
    writtenIds F.iter ps = .ok (ps.map F.nameAt)
  | [], _ => rfl
  | p :: ps, h => by
    obtain ⟨k, hk⟩ := h p (by simp)
    obtain ⟨e, c, h1, h2⟩ := hk.nameAt
    rw [writtenIds, mapRes]
    refine bind_ok.2 ⟨k, bind_ok.2 ⟨c, ?_, h2⟩, bind_ok.2 ⟨_, writtenIds_ok fun q hq => h q (List.mem_cons_of_mem _ hq), ?_⟩⟩
    · rw [Frames.getPremise_iter, h1]
      rfl
    · rw [List.map_cons, e]

theorem Resolves.denotes {V : List (List Command)} {r : RawStep} {s : Step} (h : Resolves V r s) :
    (∀ p ∈ s.premises, ∃ k, Denotes V k p) ∧ ∀ p ∈ s.discharge, ∃ k, Denotes V k p := by
  constructor
  · intro p hp
    obtain ⟨k, _, hk⟩ := forall₂_right h.2.2.2.2.1 hp
    exact ⟨k, hk⟩
  · intro p hp
    obtain ⟨k, _, hk⟩ := forall₂_right h.2.2.2.2.2 hp
    rcases hk with hk | hk
    · exact ⟨_, hk⟩
    · exact ⟨_, hk.2⟩

/-- What is written for a command consists of its tokens. -/
theorem reads_command {defs : List (Term × String)} {proof : List Command} {o : Pos} {raw : RawCommand} (ho : Occ proof o.frames o.ctx o.cmd)
    (hd : raw.describes o.frames o.cmd) (hr : ∀ F Γ c, Occ proof F Γ c → c.Readable defs) (hf : ∀ s, o.cmd = .step s → s.firstPlain o.frames) :
    Reads (printCommand defs o.iter o.cmd) (o.raw.tokens defs) := by
  obtain ⟨F, Γ, c⟩ := o
  have hc := hr _ _ _ ho
  cases c with
  | assume id t => exact reads_assume false defs hc.1 hc.2
  | step s =>
    cases raw with
    | assume => cases hd
    | anchor => exact hd.elim
    | step r =>
      obtain ⟨h1, h2⟩ := Resolves.denotes hd
      have hn : ∀ ps : List (Nat × Nat), (∀ p ∈ ps, ∃ k, Denotes F.visible k p) → ∀ i ∈ ps.map F.nameAt, Readable i := by
        intro ps hps i hi
        obtain ⟨p, hp, rfl⟩ := List.mem_map.1 hi
        obtain ⟨k, hk⟩ := hps p hp
        obtain ⟨e, c, g1, g2⟩ := hk.nameAt
        obtain ⟨F', Γ', ho'⟩ := ho.lookup g1
        rw [e]
        exact Occ.readable_id hr c _ _ k ho' g2
      have hh : ∀ i ∈ (s.discharge.map F.nameAt).head?, PlainName i := by
        intro i hi
        rw [List.head?_map, Option.mem_def, Option.map_eq_some_iff] at hi
        obtain ⟨p, hp, rfl⟩ := hi
        obtain ⟨k, hk⟩ := h2 p (List.mem_of_mem_head? hp)
        obtain ⟨e, c, g1, g2⟩ := hk.nameAt
        rw [e]
        exact hf s rfl p hp c k g1 g2
      obtain ⟨out, e, t⟩ := reads_step false defs hc.1 hc.2.1 hc.2.2.1 (hn _ h1) hc.2.2.2 (hn _ h2) hh
      exact ⟨out, bind_ok.2 ⟨_, writtenIds_ok h1, bind_ok.2 ⟨_, writtenIds_ok h2, e⟩⟩, t⟩
  | subproof cs as n =>
    cases raw with
    | assume => cases hd
    | step => exact hd.elim
    | anchor e as' =>
      obtain ⟨rfl, he⟩ := hd
      obtain ⟨out, h1, t⟩ := reads_anchor (Occ.readable_id hr _ _ _ e ho (by rw [Command.id]; exact he)) hc
      refine ⟨out, bind_ok.2 ⟨e, he, h1⟩, ?_⟩
      simpa [Pos.raw, he] using t

theorem reads_commands {defs : List (Term × String)} {proof : List Command} {os : List Pos} {raws : List RawCommand}
    (h : List.Forall₂ (fun raw o => raw.describes o.frames o.cmd) raws os) (ho : ∀ o ∈ os, Occ proof o.frames o.ctx o.cmd)
    (hr : ∀ F Γ c, Occ proof F Γ c → c.Readable defs) (hf : ∀ o ∈ os, ∀ s, o.cmd = .step s → s.firstPlain o.frames) :
    ReadsL (mapRes (fun v : Command × Iter => printCommand defs v.2 v.1) (os.map fun o => (o.cmd, o.iter))) (os.map fun o => o.raw.tokens defs) := by
  induction h with
  | nil => exact ⟨[], rfl, .nil⟩
  | @cons raw o raws os h _ ih =>
    obtain ⟨o1, e1, t1⟩ := reads_command (ho o (by simp)) h hr (hf o (by simp))
    obtain ⟨o2, e2, t2⟩ := ih (fun o h => ho o (List.mem_cons_of_mem _ h)) fun o h => hf o (List.mem_cons_of_mem _ h)
    exact ⟨_, by rw [List.map_cons, mapRes]; exact bind_ok.2 ⟨o1, e1, bind_ok.2 ⟨o2, e2, rfl⟩⟩, .cons t1 t2⟩

/-! ## Definitions -/

theorem reads_definition {x : String} {s : Srt} {t : Term} (hx : Readable x) (hs : s.Readable) (ht : t.Readable []) (h : sortOf t = some s)
    (hw : t.smallWidths) : Reads (printDefinition x t) (definitionTokens x s t) := by
  obtain ⟨ox, ex, tx⟩ := reads_name hx
  obtain ⟨os, es, ts⟩ := reads_sort hs
  obtain ⟨ot, et, tt⟩ := reads_term false [] ht
  have e0 : sortToPrint t = .ok s := by rw [sortToPrint, poolSort_ok t h hw]
  refine ⟨_, bind_ok.2 ⟨ox, ex, bind_ok.2 ⟨s, e0, bind_ok.2 ⟨os, es, bind_ok.2 ⟨ot, et, rfl⟩⟩⟩⟩, ?_⟩
  have := text_parens (out := "define-fun".toList) (ts := [.reserved .defineFun]) (text_word (by decide +kernel))
    (.cons tx (.cons text_empty (.cons ts (.cons tt .nil))))
  simpa [definitionTokens, tailChars] using this

theorem reads_definitions {E : PEnv} {F F' : List (String × FunDef)} {ds : List (String × Srt × Term)} (h : DefsWritable E F ds F')
    (hr : ∀ d ∈ ds, Readable d.1 ∧ d.2.1.Readable ∧ d.2.2.Readable []) :
    ReadsL (mapRes (fun d : String × Term => printDefinition d.1 d.2) (ds.map fun d => (d.1, d.2.2))) (ds.map fun d => definitionTokens d.1 d.2.1 d.2.2) := by
  induction h with
  | nil => exact ⟨[], rfl, .nil⟩
  | @cons F F' x s t ds hk hw hs _ ih =>
    obtain ⟨g1, g2, g3⟩ := hr (x, s, t) (by simp)
    obtain ⟨o1, e1, t1⟩ := reads_definition g1 g2 g3 hs hw.small
    obtain ⟨o2, e2, t2⟩ := ih fun d hd => hr d (List.mem_cons_of_mem _ hd)
    exact ⟨_, by rw [List.map_cons, mapRes]; exact bind_ok.2 ⟨o1, e1, bind_ok.2 ⟨o2, e2, rfl⟩⟩, .cons t1 t2⟩

theorem parseProof_rename {rs : List RawCommand} {proof : List Command} (h : parseProof rs = .ok proof)
    (hu : ∀ F Γ s, Occ proof F Γ (.step s) → s.unshadowed F) : parseProof ((allPositions proof).map Pos.raw) = .ok proof := by
  obtain ⟨n, hn⟩ := parseProof_iff.1 h
  have := hn.rename [] [] [] rfl (by
    intro o ho s hs
    have ho' : o ∈ allPositions proof := by simpa [allPositions] using ho
    obtain ⟨F, Γ, c⟩ := o
    subst hs
    exact hu _ _ _ (allPositions_iff.1 ho'))
  exact parseProof_iff.2 ⟨n, by simpa [allPositions] using this⟩

end Carcara
