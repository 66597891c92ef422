import Verif.Proofs.Genesis
/-! Several calls of `put_value_sets` after a new genesis. -/

set_option autoImplicit false

namespace Verif.Jmt
variable {D : Type}
open VTree Spec

/-! ### reads -/

/-- The answer of `get_with_proof` when a walk finds `x` with the proof `p` and the database has the value `w`. -/
def readAnswer (x : Option Value) (p : SparseMerkleProof D) (w : Option Value) : Res (Option Value × SparseMerkleProof D) :=
  match x with
  | none => .ok (none, p)
  | some _ =>
    match w with
    | none => .error (.err "Missing value")
    | some y => .ok (some y, p)

theorem getWithProofLoop_ren {ρ : Version → Version} (H : Hasher D) {r r' : Reader D}
    (hn : ∀ nk : NodeKey, r'.getNodeOption (nk.ren ρ) = (r.getNodeOption nk).map (Node.ren ρ)) (key : Key) (v v' : Version) (fuel depth : Nat)
    (nk : NodeKey) (nibs : List Nibble) (sibs : List D) (x : Option Value) (p : SparseMerkleProof D)
    (h : Tree.getWithProofLoop H r' key v' fuel depth (nk.ren ρ) nibs sibs = .ok (x, p)) :
    Tree.getWithProofLoop H r key v fuel depth nk nibs sibs = readAnswer x p (r.getValueOption v key) := by
  induction fuel generalizing depth nk nibs sibs with
  | zero => cases h
  | succ fuel ih =>
    unfold Tree.getWithProofLoop at h ⊢
    rw [hn] at h
    cases hg : r.getNodeOption nk with
    | none => rw [hg] at h; cases h
    | some n =>
      rw [hg] at h
      cases n with
      | null =>
        simp only [Option.map_some, Node.ren] at h ⊢
        split at h
        · rename_i hd
          rw [if_pos hd]; cases h; rfl
        · cases h
      | leaf l =>
        simp only [Option.map_some, Node.ren] at h ⊢
        split at h
        · rename_i hk
          rw [if_pos hk]
          split at h
          · cases h
          · cases h
            rw [hk]
            rfl
        · rename_i hk
          rw [if_neg hk]; cases h; rfl
      | internal n =>
        cases nibs with
        | nil => cases h
        | cons q nibs =>
          simp only [Option.map_some, Node.ren] at h ⊢
          rw [InternalNode.getChildWithSiblings_ren] at h
          cases hc : n.getChildWithSiblings H nk q with
          | error e => rw [hc] at h; cases h
          | ok a =>
            obtain ⟨o, s⟩ := a
            rw [hc] at h
            cases o with
            | none => cases h; rfl
            | some nk' => exact ih (depth + 1) nk' nibs (sibs ++ s) h

theorem getWithProof_ren {ρ : Version → Version} (H : Hasher D) {r r' : Reader D}
    (hn : ∀ nk : NodeKey, r'.getNodeOption (nk.ren ρ) = (r.getNodeOption nk).map (Node.ren ρ)) (key : Key) (v : Version)
    (x : Option Value) (p : SparseMerkleProof D) (h : Tree.getWithProof H r' key (ρ v) = .ok (x, p)) :
    Tree.getWithProof H r key v = readAnswer x p (r.getValueOption v key) :=
  getWithProofLoop_ren H hn key v (ρ v) _ 0 (.newEmptyPath v) key.nibbles [] x p h

theorem getRootNode_ren {ρ : Version → Version} {r r' : Reader D}
    (hn : ∀ nk : NodeKey, r'.getNodeOption (nk.ren ρ) = (r.getNodeOption nk).map (Node.ren ρ)) (v : Version) :
    Tree.getRootNode r' (ρ v) = (Tree.getRootNode r v).map (Node.ren ρ) := by
  unfold Tree.getRootNode
  have : r'.getNodeOption (.newEmptyPath (ρ v)) = _ := hn (.newEmptyPath v)
  rw [this]
  cases r.getNodeOption (.newEmptyPath v) <;> rfl

theorem getRootHash_ren {ρ : Version → Version} (H : Hasher D) {r r' : Reader D}
    (hn : ∀ nk : NodeKey, r'.getNodeOption (nk.ren ρ) = (r.getNodeOption nk).map (Node.ren ρ)) (v : Version) :
    Tree.getRootHash H r v = Tree.getRootHash H r' (ρ v) := by
  unfold Tree.getRootHash
  rw [getRootNode_ren hn]
  cases Tree.getRootNode r v with
  | error e => rfl
  | ok n =>
    show Except.ok (n.hash H) = Except.ok ((n.ren ρ).hash H)
    rw [Node.hash_ren]

theorem Node.leafCount_ren (ρ : Version → Version) (n : Node D) : (n.ren ρ).leafCount = n.leafCount := by
  cases n <;> rfl

theorem getLeafCount_ren {ρ : Version → Version} {r r' : Reader D}
    (hn : ∀ nk : NodeKey, r'.getNodeOption (nk.ren ρ) = (r.getNodeOption nk).map (Node.ren ρ)) (m : Bool) (v : Version) :
    Tree.getLeafCount m r v = Tree.getLeafCount m r' (ρ v) := by
  unfold Tree.getLeafCount
  rw [getRootNode_ren hn]
  cases m with
  | false => rfl
  | true =>
    cases Tree.getRootNode r v with
    | error e => rfl
    | ok n =>
      show Except.ok n.leafCount = Except.ok (n.ren ρ).leafCount
      rw [Node.leafCount_ren]

/-! ### a further call -/

/-- The nodes of the database are those of the store `s` with renamed versions, and version `n` is next. -/
structure Renamed (H : Hasher D) (ρ : Version → Version) (n : Version) (hist : List Commit) (r : Reader D) (s : Store D) : Prop where
  inj : Function.Injective ρ
  store : StoreInv H 0 hist 0 s
  nodes : ∀ nk, s.nodes.get (NodeKey.ren ρ nk) = (r.getNodeOption nk).map (Node.ren ρ)
  next : ρ n = hist.length
  pos : 1 ≤ n
  step : ∀ v, n - 1 ≤ v → v + 1 < preGenesisVersion → ρ (v + 1) = ρ v + 1
  lt : n < preGenesisVersion

theorem Renamed.add {H : Hasher D} {ρ : Version → Version} {n : Version} {hist : List Commit} {r : Reader D} {s : Store D}
    (h : Renamed H ρ n hist r s) (i : Nat) (hi : n + i < preGenesisVersion) : ρ (n + i) = hist.length + i := by
  induction i with
  | zero => exact h.next
  | succ i ih =>
    rw [← Nat.add_assoc, h.step (n + i) (by omega) (by omega), ih (by omega)]
    omega

/-- A call gives the root hashes of the renamed store and keeps the renaming. -/
theorem Renamed.call {H : Hasher D} {ρ : Version → Version} {n : Version} {hist : List Commit} {r : Reader D} {s : Store D}
    (h : Renamed H ρ n hist r s) (call : UpdateCall) (hf : call.Filled) (hlen : n + call.sets.length < preGenesisVersion) :
    ∃ roots b s', call.run H r n = .ok (roots, b) ∧ Renamed H ρ (n + call.sets.length) (hist ++ call.commits) (r.plus b) s' ∧
      roots = (List.range call.sets.length).map (fun i => (treeAt H 0 (hist ++ call.commits) (hist.length + i)).hash H) ∧
      OMap.Sorted valueKeyLt b.nodeBatch.values.entries ∧
      ∀ v k, b.nodeBatch.values.get (v, k) = if n ≤ v then (call.sets[v - n]?).bind (fun x => lastOf x k) else none := by
  have hρ := h.inj
  have hpos : hist ≠ [] := by
    intro he
    have := h.step (n - 1) (Nat.le_refl _) (by have := h.lt; have := h.pos; omega)
    rw [show n - 1 + 1 = n by have := h.pos; omega, h.next, he] at this
    simp at this
  obtain ⟨rB, bB, e1, e2⟩ := call.resume h.store hpos hf
  have hn0 : n ≠ 0 := by have := h.pos; omega
  have hl0 : hist.length ≠ 0 := by simpa using hpos
  have hsim : Sim ρ [] [] (fun _ _ => none) (TreeCache.new r n) (TreeCache.new s.reader hist.length) := by
    unfold TreeCache.new
    rw [if_neg hn0, if_neg hl0]
    refine { root := ?_, next := h.next.symm, nodes := .empty, newLeaves := rfl, stale := .empty, staleLeaves := rfl, fnodes := .empty, fstale := .empty, stats := rfl,
             roots := rfl, vcache := .empty, vsorted := List.Pairwise.nil, vsorted' := List.Pairwise.nil,
             values := fun _ _ => rfl, reader := h.nodes }
    have := h.step (n - 1) (Nat.le_refl _) (by have := h.lt; omega)
    rw [show n - 1 + 1 = n by omega, h.next] at this
    simp only [NodeKey.newEmptyPath, NodeKey.ren, NodeKey.mk.injEq, and_true]
    omega
  have hrun := hsim.loop hρ H call n (by unfold TreeCache.new; rw [if_neg hn0]) (by unfold TreeCache.new; rw [if_neg hn0]; rfl)
    (fun v hv hv' => h.step v (by omega) (by omega)) (fun v hv hv' => by
      have := h.add (v - n) (by omega)
      rw [show n + (v - n) = v by omega] at this
      omega)
  rw [h.next] at hrun
  rw [UpdateCall.run_loop] at e1 ⊢
  rw [Nat.zero_add] at e1
  generalize call.loop H n (TreeCache.new r n) = x at *
  generalize call.loop H hist.length (TreeCache.new s.reader hist.length) = y at *
  cases hrun with
  | error e => cases e1
  | @ok cA cB hs =>
    obtain ⟨h1, h2⟩ := Prod.mk.inj (Except.ok.inj e1)
    rw [← h1, ← h2] at e2
    have e2 : BatchSpec H 0 hist _ 0 s cB.into.1 cB.into.2 := e2
    obtain ⟨s', w1, w2, w3, w4, w5⟩ := h.store.write e2
    refine ⟨_, _, s', rfl, ⟨hρ, w2, ?_, ?_, by omega, fun v hv hv' => h.step v (by omega) hv', hlen⟩, ?_, hs.vsorted, ?_⟩
    · intro nk
      rw [w3]
      show (cB.frozen.nodeCache.nodes.get _).or _ = ((cA.frozen.nodeCache.nodes.get nk).or _).map _
      rw [FMap.get_map (NodeKey.ren_inj ρ hρ) hs.fnodes, h.nodes]
      cases cA.frozen.nodeCache.nodes.get nk <;> rfl
    · rw [h.add _ hlen]; simp [call.commits_length]
    · have hr : cA.into.1 = cB.into.1 := hs.roots
      show cA.into.1 = _
      rw [hr, e2.roots]
      simp [call.commits_length]
    · intro v k
      have h1 : cA.into.2.nodeBatch.values.get (v, k) = _ := hs.values v k
      have h2 : cB.frozen.nodeCache.values.get (ρ v, k) = _ := e2.vget (ρ v) k
      show cA.into.2.nodeBatch.values.get (v, k) = _
      rw [h1, h2, Option.or_none]
      have hb : ∀ i : Nat, (call.commits[i]?).bind (fun cm : Commit => lastOf cm.updates k) = (call.sets[i]?).bind (fun x => lastOf x k) := by
        intro i
        rw [← call.commits_updates, List.getElem?_map]
        cases call.commits[i]? <;> rfl
      simp only [Nat.zero_add, hb]
      by_cases hv : n ≤ v ∧ v < n + call.sets.length
      · have := h.add (v - n) (by omega)
        rw [show n + (v - n) = v by omega] at this
        rw [if_pos (by omega), if_pos hv.1]
        congr 2
        omega
      · have hr : (if n ≤ v then (call.sets[v - n]?).bind (fun x => lastOf x k) else none) = none := by
          split
          · rw [List.getElem?_eq_none (by omega)]; rfl
          · rfl
        rw [hr]
        split
        · rename_i hle
          by_cases hlt : ρ v - hist.length < call.sets.length
          · exfalso
            have := h.add (ρ v - hist.length) (by omega)
            have := hρ (this.trans (show _ = ρ v by omega))
            omega
          · rw [List.getElem?_eq_none (by omega)]; rfl
        · rfl

/-! ### values -/

theorem plus_value {r : Reader D} {b : TreeUpdateBatch D} {n : Version} {sets : List Tree.ValueSet}
    (hs : OMap.Sorted valueKeyLt b.nodeBatch.values.entries)
    (hg : ∀ v k, b.nodeBatch.values.get (v, k) = if n ≤ v then (sets[v - n]?).bind (fun x => lastOf x k) else none) (u : Version) (k : Key) :
    (r.plus b).getValueOption u k =
      match (histOf n (sets.map (.seq true)) k).reverse.find? (fun e => decide (e.1 ≤ u)) with
      | some e => e.2
      | none => r.getValueOption u k := by
  have h1 := values_histOf (vals := b.nodeBatch.values) hs (first := n) (sets := sets.map (.seq true)) (by
    intro v k
    rw [hg, List.getElem?_map]
    cases sets[v - n]? <;> rfl) k
  rw [← h1, ← List.map_reverse, List.find?_map]
  unfold Reader.plus
  dsimp only
  have : ((fun e : Version × Option Value => decide (e.1 ≤ u)) ∘ fun e : (Version × Key) × Option Value => (e.1.1, e.2)) = fun e => decide (e.1.1 ≤ u) := rfl
  rw [this]
  cases (b.nodeBatch.values.entries.filter (fun e => decide (e.1.2 = k))).reverse.find? (fun e => decide (e.1.1 ≤ u)) <;> rfl

theorem contents_find (all : List Tree.ValueSet) (u : Version) (k : Key) :
    contents (all.take (u + 1)) k = ((histOf 0 (all.map (.seq true)) k).reverse.find? (fun e => decide (e.1 ≤ u))).bind (fun e => e.2) := by
  rw [histOf_find, ← List.map_take, List.map_map]
  congr 1
  have : (Commit.updates ∘ Commit.seq true) = id := rfl
  rw [this, List.map_id]
  rfl

/-! ### all calls -/

/-- A key written as the first argument, the contents of `P` and of the sets. -/
abbrev withBatch (P : List (Key × Value)) (sets : List Tree.ValueSet) : Key → Option Value :=
  contents (P.map (fun e => (e.1, some e.2)) :: sets)

/-- The state of the database after the sets `all` have been written on top of the pairs `P`. -/
structure GenesisInv (H : Hasher D) (P : List (Key × Value)) (all : List Tree.ValueSet) (r : Reader D) (ρ : Version → Version) (hist : List Commit)
    (s : Store D) : Prop where
  ren : Renamed H ρ all.length hist r s
  cont : ∀ u, u < all.length → (∀ x, all.head? = some x → Idle (batchContents P) x → u ≠ 0) → ρ u < hist.length ∧
    contents ((hist.take (ρ u + 1)).map Commit.updates) = withBatch P (all.take (u + 1))
  whole : contents (hist.map Commit.updates) = withBatch P all
  vals : ∀ u, u < preGenesisVersion → ∀ k, r.getValueOption u k = contents (all.take (u + 1)) k

theorem GenesisInv.call {H : Hasher D} {P : List (Key × Value)} {all : List Tree.ValueSet} {r : Reader D} {ρ : Version → Version}
    {hist : List Commit} {s : Store D} (h : GenesisInv H P all r ρ hist s) (call : UpdateCall) (hf : call.Filled)
    (hlen : all.length + call.sets.length < preGenesisVersion) :
    ∃ roots b hist' s', call.run H r all.length = .ok (roots, b) ∧ GenesisInv H P (all ++ call.sets) (r.plus b) ρ hist' s' ∧
      roots.length = call.sets.length ∧
      ∀ i, i < call.sets.length → ∀ L, Lists H (withBatch P ((all ++ call.sets).take (all.length + i + 1))) L → roots[i]? = some (smtRoot H L) := by
  obtain ⟨roots, b, s', e1, e2, e3, e4, e5⟩ := h.ren.call call hf hlen
  have hcl := call.commits_length
  have hcont : ∀ i, contents (((hist ++ call.commits).take (hist.length + i + 1)).map Commit.updates) =
      withBatch P ((all ++ call.sets).take (all.length + i + 1)) := by
    intro i
    rw [Nat.add_assoc, Nat.add_assoc, List.take_length_add_append, List.take_length_add_append, List.map_append, List.map_take, call.commits_updates,
      contents_append, h.whole]
    show _ = contents ((_ :: all) ++ _)
    rw [contents_append]
  have hall : all ≠ [] := by have := h.ren.pos; rintro rfl; simp at this
  refine ⟨roots, b, hist ++ call.commits, s', e1, ⟨by rw [List.length_append]; exact e2, ?_, ?_, ?_⟩, by rw [e3]; simp, ?_⟩
  · intro u hu hq
    by_cases hlt : u < all.length
    · obtain ⟨h1, h2⟩ := h.cont u hlt (fun x hx => hq x (by
        obtain ⟨a, l, rfl⟩ := List.exists_cons_of_ne_nil hall
        exact hx))
      refine ⟨by simp [hcl]; omega, ?_⟩
      rw [List.take_append_of_le_length (by omega), h2, List.take_append_of_le_length (by omega)]
    · rw [List.length_append] at hu
      have := h.ren.add (u - all.length) (by omega)
      rw [show all.length + (u - all.length) = u by omega] at this
      refine ⟨by simp [hcl]; omega, ?_⟩
      have h2 := hcont (u - all.length)
      rw [show all.length + (u - all.length) = u by omega] at h2
      rw [this, h2]
  · rw [List.map_append, call.commits_updates, contents_append, h.whole]
    show _ = contents ((_ :: all) ++ _)
    rw [contents_append]
  · intro u hu k
    rw [plus_value e4 e5, contents_find, List.map_append, histOf_append, List.reverse_append, List.find?_append]
    simp only [List.length_map, Nat.zero_add]
    cases (histOf all.length (call.sets.map (.seq true)) k).reverse.find? (fun e => decide (e.1 ≤ u)) with
    | some e => rfl
    | none =>
      simp only [Option.none_or]
      rw [h.vals u hu, contents_find]
  · intro i hi L hL
    have hf := e2.store.facts (v := hist.length + i) (Nat.zero_le _) (by simp [hcl]; omega)
    rw [Nat.sub_zero, hcont] at hf
    rw [e3, ← hf.hash hL]
    simp [hi]

/-- The calls after the first. -/
theorem GenesisInv.calls {H : Hasher D} {P : List (Key × Value)} (calls : List UpdateCall) (hf : ∀ c ∈ calls, c.Filled) {all : List Tree.ValueSet} {r : Reader D}
    {ρ : Version → Version} {hist : List Commit} {s : Store D} (h : GenesisInv H P all r ρ hist s)
    (hlen : all.length + (calls.map UpdateCall.sets).flatten.length < preGenesisVersion) :
    ∃ roots r' hist' s', Tree.putCalls H calls r all.length = .ok (roots, r') ∧ GenesisInv H P (all ++ (calls.map UpdateCall.sets).flatten) r' ρ hist' s' ∧
      roots.length = (calls.map UpdateCall.sets).flatten.length ∧
      ∀ i, i < (calls.map UpdateCall.sets).flatten.length → ∀ L, Lists H (withBatch P ((all ++ (calls.map UpdateCall.sets).flatten).take (all.length + i + 1))) L →
        roots[i]? = some (smtRoot H L) := by
  induction calls generalizing all r hist s with
  | nil => exact ⟨[], r, hist, s, rfl, by simpa using h, rfl, by intro i hi; cases hi⟩
  | cons c calls ih =>
    simp only [List.map_cons, List.flatten_cons, List.length_append] at hlen ⊢
    obtain ⟨roots, b, hist1, s1, e1, e2, e3, e4⟩ := h.call c (hf c List.mem_cons_self) (by omega)
    obtain ⟨roots', r', hist2, s2, f1, f2, f3, f4⟩ := ih (fun c hc => hf c (List.mem_cons_of_mem _ hc)) e2 (by simp only [List.length_append]; omega)
    rw [List.append_assoc] at f2 f4
    rw [List.length_append] at f1 f4
    refine ⟨roots ++ roots', r', hist2, s2, ?_, f2, by rw [List.length_append, e3, f3], ?_⟩
    · simp only [Tree.putCalls, e1, Res.ok_bind, f1]
    · intro i hi L hL
      by_cases hlt : i < c.sets.length
      · rw [List.getElem?_append_left (by omega)]
        refine e4 i hlt L ?_
        rw [← List.append_assoc, List.take_append_of_le_length (by simp; omega)] at hL
        exact hL
      · rw [List.getElem?_append_right (by omega), e3]
        refine f4 (i - c.sets.length) (by omega) L ?_
        rw [show all.length + c.sets.length + (i - c.sets.length) + 1 = all.length + i + 1 by omega]
        exact hL

/-- The state after the first call. -/
theorem GenesisBatch.start {H : Hasher D} {m : Bool} {P : List (Key × Value)} {sets : List Tree.ValueSet} {sA : Store D} {roots : List D}
    {b : TreeUpdateBatch D} (h : GenesisBatch H P sets sA roots b) (hA : StoreInv H preGenesisVersion [.batch m P] preGenesisVersion sA)
    (hne : sets ≠ []) (hlen : sets.length < preGenesisVersion) (hone : ∀ x, sets = [x] → ¬ Idle (batchContents P) x) :
    ∃ ρ hist s, GenesisInv H P sets (sA.reader.plus b) ρ hist s := by
  obtain ⟨ρ, hist, s, h1, h2, h3, h4, h5, h6, h7⟩ := h.reads
  have hpos : 0 < sets.length := List.length_pos_of_ne_nil hne
  refine ⟨ρ, hist, s, ⟨h1, h2, h3, h6, hpos, ?_, hlen⟩, h4, h5, ?_⟩
  · intro v hv hv'
    refine h7 v ?_ hv'
    intro hv0 x hx
    refine hone x ?_
    have : sets.length = 1 := by omega
    obtain ⟨y, rfl⟩ := List.length_eq_one_iff.1 this
    cases hx; rfl
  · intro u hu k
    rw [plus_value (n := 0) (sets := sets) h.vsorted (fun v k => by rw [h.vget]; simp), contents_find]
    cases (histOf 0 (sets.map (.seq true)) k).reverse.find? (fun e => decide (e.1 ≤ u)) with
    | some e => rfl
    | none =>
      show sA.getValueOption u k = _
      rw [hA.getValueOption, show u + 1 - preGenesisVersion = 0 by omega]
      rfl

end Verif.Jmt
