import Verif.Lemmas.NodeList

/-!
# The forest of a list mirrors it
-/

namespace Carcara

theorem nodeAt_frames {fs : List NFrame} {p : Nat × Nat} {f : NFrame} {n : ANode} (hf : fs[p.1]? = some f) (hn : f.acc[p.2]? = some n) :
    nodeAt (fs.map (·.acc)) p = some n := by
  simp [nodeAt, List.getElem?_map, hf, hn]

theorem nodeAt_snoc {env : List (List ANode)} {l : List ANode} {p : Nat × Nat} (h : p.1 < env.length) : nodeAt (env ++ [l]) p = nodeAt env p := by
  rw [nodeAt, nodeAt, List.getElem?_append_left h]

theorem DenotedBelow.snoc {env : List (List ANode)} {l : List ANode} {refs : List (Nat × Nat)} {out : List ANode} {b : Nat} (hb : b ≤ env.length) :
    DenotedBelow (env ++ [l]) b refs out ↔ DenotedBelow env b refs out := by
  constructor
  · rintro ⟨h1, h2⟩
    refine ⟨fun m hm => ?_, fun p hp hlt => ?_⟩
    · obtain ⟨p, hp, hlt, h⟩ := h1 m hm
      exact ⟨p, hp, hlt, by rwa [nodeAt_snoc (by omega)] at h⟩
    · obtain ⟨m, hm, h⟩ := h2 p hp hlt
      exact ⟨m, hm, by rwa [nodeAt_snoc (by omega)] at h⟩
  · rintro ⟨h1, h2⟩
    refine ⟨fun m hm => ?_, fun p hp hlt => ?_⟩
    · obtain ⟨p, hp, hlt, h⟩ := h1 m hm
      exact ⟨p, hp, hlt, by rwa [nodeAt_snoc (by omega)]⟩
    · obtain ⟨m, hm, h⟩ := h2 p hp hlt
      exact ⟨m, hm, by rwa [nodeAt_snoc (by omega)]⟩

theorem addOutbound_spec {b : Nat} : ∀ {ps out out' : List ANode} (_ : addOutbound b out ps = .ok out'),
    (∀ m ∈ out', m ∈ out ∨ ∃ d, m ∈ ps ∧ m.depth = .ok d ∧ d < b) ∧ (∀ m ∈ out, m ∈ out') ∧
      (∀ m ∈ ps, ∀ d, m.depth = .ok d → d < b → ∃ m' ∈ out', m'.addr = m.addr)
  | [], out, out', h => by cases h; exact ⟨fun m hm => .inl hm, fun _ h => h, by simp⟩
  | p :: ps, out, out', h => by
    rw [addOutbound, bind_ok] at h
    obtain ⟨d, hd, h⟩ := h
    obtain ⟨h1, h2, h3⟩ := addOutbound_spec h
    have hsub : ∀ m ∈ out, m ∈ (if d < b then insertNode out p else out) := by
      intro m hm
      split
      · rw [insertNode]; split
        · exact hm
        · exact List.mem_append_left _ hm
      · exact hm
    refine ⟨fun m hm => ?_, fun m hm => h2 m (hsub m hm), fun m hm e he hlt => ?_⟩
    · rcases h1 m hm with h | ⟨e, hm, he⟩
      · split at h
        · next hlt =>
          rw [insertNode] at h
          split at h
          · exact .inl h
          · rcases List.mem_append.1 h with h | h
            · exact .inl h
            · obtain rfl := List.mem_singleton.1 h
              exact .inr ⟨d, .head _, hd, hlt⟩
        · exact .inl h
      · exact .inr ⟨e, .tail _ hm, he⟩
    · rcases List.mem_cons.1 hm with rfl | hm
      · obtain rfl : d = e := by rw [hd] at he; cases he; rfl
        rw [if_pos hlt] at h2
        rw [insertNode] at h2
        split at h2
        · next ha =>
          obtain ⟨m', hm', e⟩ := List.any_eq_true.1 ha
          exact ⟨m', h2 m' hm', by simpa using e⟩
        · exact ⟨m, h2 m (by simp), rfl⟩
      · exact h3 m hm e he hlt

/-- Adding the nodes of references to the outbound premises of a frame. -/
theorem DenotedBelow.add {fs : List NFrame} {next b : Nat} (hg : GoodFrames fs next) {refs qs : List (Nat × Nat)} {ps out out' : List ANode}
    (h : DenotedBelow (fs.map (·.acc)) b refs out)
    (h1 : ∀ m ∈ ps, ∃ p ∈ qs, nodeAt (fs.map (·.acc)) p = some m)
    (h2 : ∀ p ∈ qs, p.1 < b → ∃ m ∈ ps, nodeAt (fs.map (·.acc)) p = some m)
    (ha : addOutbound b out ps = .ok out') : DenotedBelow (fs.map (·.acc)) b (refs ++ qs) out' := by
  obtain ⟨a1, a2, a3⟩ := addOutbound_spec ha
  have frame : ∀ {p : Nat × Nat} {m : ANode}, nodeAt (fs.map (·.acc)) p = some m → ∃ f, fs[p.1]? = some f ∧ f.acc[p.2]? = some m := by
    intro p m hn
    rw [nodeAt, Option.bind_eq_some_iff] at hn
    obtain ⟨l, hl, hn⟩ := hn
    rw [List.getElem?_map, Option.map_eq_some_iff] at hl
    obtain ⟨f, hf, rfl⟩ := hl
    exact ⟨f, hf, hn⟩
  have hfirst : ∀ m ∈ out', ∃ p ∈ refs ++ qs, p.1 < b ∧ nodeAt (fs.map (·.acc)) p = some m := by
    intro m hm
    rcases a1 m hm with hm | ⟨d, hm, hd, hlt⟩
    · obtain ⟨p, hp, h⟩ := h.1 m hm
      exact ⟨p, List.mem_append_left _ hp, h⟩
    · obtain ⟨p, hp, hn⟩ := h1 m hm
      refine ⟨p, List.mem_append_right _ hp, ?_, hn⟩
      obtain ⟨f, hf, hn⟩ := frame hn
      have := (hg.depth _ f _ m hf hn).1
      rw [hd] at this; cases this; exact hlt
  refine ⟨hfirst, fun p hp hlt => ?_⟩
  rcases List.mem_append.1 hp with hp | hp
  · obtain ⟨m, hm, hn⟩ := h.2 p hp hlt
    exact ⟨m, a2 m hm, hn⟩
  · obtain ⟨m, hm, hn⟩ := h2 p hp hlt
    obtain ⟨f, hf, hi⟩ := frame hn
    obtain ⟨m', hm', e'⟩ := a3 m hm p.1 (hg.depth _ f _ m hf hi).1 hlt
    obtain ⟨q, -, -, hq⟩ := hfirst m' hm'
    obtain ⟨f', hf', hi'⟩ := frame hq
    obtain rfl := hg.inj _ f' _ m' _ f _ m hf' hi' hf hi e'
    exact ⟨m', hm', hn⟩

theorem mapRes_lookup {fs : List NFrame} : ∀ {ps : List (Nat × Nat)} {ns : List ANode}, mapRes (lookupNode fs) ps = .ok ns →
    ps.map (nodeAt (fs.map (·.acc))) = ns.map some
  | [], ns, h => by cases h; rfl
  | p :: ps, ns, h => by
    rw [mapRes, bind_ok] at h
    obtain ⟨n, hn, h⟩ := h
    obtain ⟨ns', hns, h⟩ := bind_ok.1 h
    cases h
    rw [lookupNode, bind_ok] at hn
    obtain ⟨f, hf, hn⟩ := hn
    rw [List.map_cons, List.map_cons, nodeAt_frames (orPanic_ok.1 hf) (orPanic_ok.1 hn), mapRes_lookup hns]

mutual
theorem command_mirrors (c : Command) (outer : List NFrame) (top : NFrame) (next : Nat) (isLast : Bool) (n : ANode) (out : List ANode) (next' : Nat)
    (refs : List (Nat × Nat)) (hg : GoodFrames (outer ++ [top]) next) (hwf : c.wf = true)
    (hsc : c.scoped (outer.map fun f => f.acc.length) top.acc.length)
    (h : nodeOfCommand outer top next isLast c = .ok (n, out, next')) (ho : DenotedBelow (outer.map (·.acc)) outer.length refs top.outbound) :
    Mirrors (outer.map (·.acc)) top.acc (isLast = true) c n ∧ DenotedBelow (outer.map (·.acc)) outer.length (refs ++ c.refs) out := by
  have hmap : (outer ++ [top]).map (·.acc) = outer.map (·.acc) ++ [top.acc] := by simp
  match c with
  | .assume id t =>
    rw [nodeOfCommand] at h; cases h
    exact ⟨⟨rfl, rfl, by simp⟩, by simpa [Command.refs] using ho⟩
  | .step s =>
    rw [nodeOfCommand, bind_ok] at h
    obtain ⟨ps, hps, h⟩ := h
    obtain ⟨ds, hds, h⟩ := bind_ok.1 h
    obtain ⟨out', hout, h⟩ := bind_ok.1 h
    obtain ⟨prev, hprev, h⟩ := bind_ok.1 h
    cases h
    have hp := mapRes_lookup hps
    have hd := mapRes_lookup hds
    refine ⟨?_, ?_⟩
    · rw [hmap] at hp hd
      refine ⟨by simp, hp, hd, fun hl => ?_, fun hl => ?_⟩
      · rw [if_pos ⟨by have := hl.1; simp at this; exact List.length_pos_iff.2 this, hl.2⟩, bind_ok] at hprev
        obtain ⟨p, hp, e⟩ := hprev
        cases e
        exact ⟨rfl, (orPanic_ok.1 hp).symm⟩
      · rw [if_neg (fun hl' => hl ⟨by simpa using List.length_pos_iff.1 hl'.1, hl'.2⟩)] at hprev
        cases hprev; rfl
    · have h0 := (DenotedBelow.snoc (l := top.acc) (by simp)).2 ho
      rw [← hmap] at h0
      refine (DenotedBelow.snoc (l := top.acc) (by simp)).1 ?_
      rw [← hmap]
      refine h0.add hg (fun m hm => ?_) (fun p hpp _ => ?_) hout
      · have : some m ∈ s.premises.map (nodeAt ((outer ++ [top]).map (·.acc))) := by rw [hp]; exact List.mem_map.2 ⟨m, hm, rfl⟩
        obtain ⟨p, hp', e⟩ := List.mem_map.1 this
        exact ⟨p, hp', e⟩
      · have : nodeAt ((outer ++ [top]).map (·.acc)) p ∈ ps.map some := by rw [← hp]; exact List.mem_map.2 ⟨p, hpp, rfl⟩
        obtain ⟨m, hm, e⟩ := List.mem_map.1 this
        exact ⟨m, hm, e.symm⟩
  | .subproof cs as k =>
    rw [nodeOfCommand, bind_ok] at h
    obtain ⟨⟨f, nx⟩, hf, h⟩ := h
    obtain ⟨out', hout, h⟩ := bind_ok.1 h
    obtain ⟨last, hlast, h⟩ := bind_ok.1 h
    cases h
    rw [Command.wf, Bool.and_eq_true, Bool.and_eq_true, decide_eq_true_eq] at hwf
    have hsizes : (outer ++ [top]).map (fun f => f.acc.length) = outer.map (fun f => f.acc.length) ++ [top.acc.length] := by simp
    rw [Command.scoped, ← hsizes] at hsc
    obtain ⟨ns, e, hm, hob⟩ := commands_mirror cs (outer ++ [top]) {} next f nx [] hg.push hwf.2 hsc (fun _ => by simpa using hwf.1.1) hf
      ⟨by simp, by simp⟩
    obtain ⟨ns', out'', nx', hno, -, -, hg', -⟩ := commands_roundtrip cs (outer ++ [top]) {} next hg.push hwf.2 hsc
      (fun _ => by simpa using hwf.1.1)
    rw [hf] at hno
    simp only [Except.ok.injEq, Prod.mk.injEq] at hno
    obtain ⟨rfl, rfl⟩ := hno
    have hl : ns' = ns'.dropLast ++ [last] := by
      have := orPanic_ok.1 hlast
      rw [List.nil_append] at this
      obtain ⟨ys, rfl⟩ := List.getLast?_eq_some_iff.1 this
      simp
    simp only [List.nil_append] at e
    subst e
    rw [hmap] at hm hob
    simp only [List.length_append, List.length_cons, List.length_nil, Nat.zero_add, List.nil_append] at hob
    refine ⟨⟨rfl, ?_, by rw [List.length_map]; exact hob⟩, ?_⟩
    · rw [show ([] ++ ns' : List ANode).dropLast ++ [last] = ns' by rw [List.nil_append]; exact hl.symm]
      exact hm
    · have h0 := (DenotedBelow.snoc (l := top.acc) (by simp)).2 ho
      rw [← hmap] at h0
      refine (DenotedBelow.snoc (l := top.acc) (by simp)).1 ?_
      rw [← hmap]
      rw [← hmap] at hob
      refine h0.add hg (fun m hm => ?_) (fun p hpp hlt => ?_) hout
      · obtain ⟨p, hp, -, h⟩ := hob.1 m hm
        exact ⟨p, hp, h⟩
      · exact hob.2 p hpp (by omega)
theorem commands_mirror (cs : List Command) (outer : List NFrame) (top : NFrame) (next : Nat) (f : NFrame) (next' : Nat)
    (refs : List (Nat × Nat)) (hg : GoodFrames (outer ++ [top]) next) (hwf : Command.wfL cs = true)
    (hsc : Command.scopedL (outer.map fun f => f.acc.length) top.acc.length cs) (hlast : outer ≠ [] → 2 ≤ top.acc.length + cs.length)
    (h : nodesOfCommands outer top next cs = .ok (f, next')) (ho : DenotedBelow (outer.map (·.acc)) outer.length refs top.outbound) :
    ∃ ns, f.acc = top.acc ++ ns ∧ MirrorsL (outer.map (·.acc)) top.acc cs ns ∧
      DenotedBelow (outer.map (·.acc)) outer.length (refs ++ Command.refsL cs) f.outbound := by
  match cs with
  | [] =>
    rw [nodesOfCommands] at h; cases h
    exact ⟨[], by simp, rfl, by simpa [Command.refsL] using ho⟩
  | c :: cs =>
    rw [nodesOfCommands, bind_ok] at h
    obtain ⟨⟨n, out, nx⟩, hn, h⟩ := h
    rw [Command.wfL, Bool.and_eq_true] at hwf
    obtain ⟨n', out', nx', hn', hd, hna, hna', hob, -⟩ := command_roundtrip c outer top next cs.isEmpty hg hwf.1 hsc.1 (by
      intro h1 h2 h3
      have := hlast h1
      rw [h3, List.isEmpty_iff.1 h2] at this
      simp at this)
    rw [hn] at hn'
    simp only [Except.ok.injEq, Prod.mk.injEq] at hn'
    obtain ⟨rfl, rfl, rfl⟩ := hn'
    obtain ⟨hm, ho'⟩ := command_mirrors c outer top next cs.isEmpty n out nx refs hg hwf.1 hsc.1 hn ho
    obtain ⟨ns, e, hms, ho''⟩ := commands_mirror cs outer ⟨top.acc ++ [n], out⟩ nx f next' (refs ++ c.refs) (hg.snoc hna hd hna' hob) hwf.2
      (by simpa using hsc.2) (fun h => by have := hlast h; simp at this ⊢; omega) h ho'
    refine ⟨n :: ns, by simpa using e, ⟨?_, hms⟩, by simpa [Command.refsL] using ho''⟩
    rwa [List.isEmpty_iff] at hm
end

end Carcara
