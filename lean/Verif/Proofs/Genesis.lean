import Verif.Proofs.Rename
import Verif.Proofs.RestoreContinue
import Verif.Proofs.Merge
import Verif.Proofs.UpdateCall
/-! A new genesis on top of a state stored under the version before genesis. -/

set_option autoImplicit false

namespace Verif.Jmt
variable {D : Type}
open VTree Spec

/-! ### trees with renamed versions -/

theorem InternalNode.ofFun_ren (ρ : Version → Version) (m : Bool) (f : Nibble → Option (Child D)) :
    (InternalNode.ofFun m f).ren ρ = .ofFun m (fun i => (f i).map (Child.ren ρ)) := by
  have hc : (Children.ofFun f).ren ρ = .ofFun (fun i => (f i).map (Child.ren ρ)) := by
    unfold Children.ofFun Children.ren
    simp only [Children.mk.injEq, true_and]
    rw [← List.map_filterMap, List.length_map]
  unfold InternalNode.ofFun InternalNode.ren
  dsimp only
  rw [hc, ← InternalNode.sumLeafCount_ren ρ (.ofFun f), hc]

namespace VTree
variable (ρ : Version → Version)

/-- The tree with its versions renamed. -/
def ren : VTree D → VTree D
  | .empty => .empty
  | .leaf v k h => .leaf (ρ v) k h
  | .node v m ch => .node (ρ v) m (fun i => (ch i).ren)

theorem child_ren (H : Hasher D) (t : VTree D) : (t.ren ρ).child H = (t.child H).map (Child.ren ρ) := by
  induction t with
  | empty => rfl
  | leaf => rfl
  | node v m ch ih =>
    simp only [ren, child, ih, ← InternalNode.ofFun_ren]
    rw [InternalNode.hash_ren]
    rfl

theorem toNode_ren (H : Hasher D) (t : VTree D) : (t.ren ρ).toNode H = (t.toNode H).ren ρ := by
  cases t with
  | empty => rfl
  | leaf => rfl
  | node v m ch =>
    simp only [ren, toNode, child_ren, ← InternalNode.ofFun_ren]
    rfl

theorem at?_ren (hρ : Function.Injective ρ) (H : Hasher D) (t : VTree D) (v : Version) (q : List Nibble) :
    (t.ren ρ).at? H (ρ v) q = (t.at? H v q).map (Node.ren ρ) := by
  induction t generalizing q with
  | empty => rfl
  | leaf v' k h =>
    simp only [ren, at?_leaf, hρ.eq_iff]
    split <;> rfl
  | node v' m ch ih =>
    cases q with
    | nil =>
      have := toNode_ren ρ H (.node v' m ch)
      simp only [ren] at this ⊢
      simp only [at?_node_nil, hρ.eq_iff]
      split
      · rw [this]; rfl
      · rfl
    | cons i q => exact ih i q

theorem create_ren (w : Version) (m : Bool) (h : Nat) (kvs : List (Key × D)) : (create w m h kvs).ren ρ = create (ρ w) m h kvs := by
  induction h generalizing kvs with
  | zero =>
    match kvs with
    | [] => rfl
    | [(_, _)] => rfl
    | _ :: _ :: _ => rfl
  | succ h ih =>
    match kvs with
    | [] => rfl
    | [(_, _)] => rfl
    | _ :: _ :: _ =>
      simp only [create, ren]
      congr 1
      funext i
      exact ih _

theorem stored_ren (hρ : Function.Injective ρ) (H : Hasher D) (w : Version) (t : VTree D) (v : Version) (q : List Nibble) :
    stored H (ρ w) (t.ren ρ) (ρ v) q = (stored H w t v q).map (Node.ren ρ) := by
  cases t with
  | empty =>
    simp only [ren, stored, hρ.eq_iff]
    split <;> rfl
  | leaf v' k h => exact at?_ren ρ hρ H (.leaf v' k h) v q
  | node v' m ch => exact at?_ren ρ hρ H (.node v' m ch) v q

end VTree

/-- A store with one version holds the nodes of its tree and no others. -/
theorem StoreInv.one {H : Hasher D} {w : Version} {m : Bool} {P : List (Key × Value)} {s : Store D} (h : StoreInv H w [.batch m P] w s)
    (v : Version) (q : List Nibble) :
    s.nodes.get ⟨v, q⟩ = if v = w then stored H w (create w m 64 (hashKvs H P)) w q else none := by
  rw [← treeAt_single]
  apply Option.ext
  intro n
  constructor
  · intro hn
    obtain ⟨h1, h2, h3⟩ := h.inv.dom v q n hn
    have hv : v = w := by simp only [List.length_singleton] at h2; omega
    subst hv
    rw [if_pos rfl]; exact h3
  · intro hn
    split at hn
    · rename_i hv
      subst hv
      exact h.inv.nodes v (Nat.le_refl _) (by simp) v q n hn
    · cases hn

theorem StoreInv.one_ren {H : Hasher D} {w w' : Version} {m : Bool} {P : List (Key × Value)} {s s' : Store D}
    (h : StoreInv H w [.batch m P] w s) (h' : StoreInv H w' [.batch m P] w' s') {ρ : Version → Version} (hρ : Function.Injective ρ)
    (hw : ρ w = w') (nk : NodeKey) : s'.nodes.get (nk.ren ρ) = (s.nodes.get nk).map (Node.ren ρ) := by
  obtain ⟨v, q⟩ := nk
  subst hw
  show s'.nodes.get ⟨ρ v, q⟩ = _
  rw [h'.one, h.one, ← create_ren, stored_ren ρ hρ]
  simp only [hρ.eq_iff]
  split <;> rfl

/-! ### the two renamings -/

/-- The version before genesis becomes version 0 and all others move up by one. -/
def shiftVer (v : Version) : Version := if v = preGenesisVersion then 0 else v + 1

theorem shiftVer_inj : Function.Injective shiftVer := by
  intro a b h
  unfold shiftVer at h
  split at h <;> split at h <;> omega

/-- The version before genesis and version 0 change places. -/
def swapVer (v : Version) : Version := if v = preGenesisVersion then 0 else if v = 0 then preGenesisVersion else v

theorem swapVer_inj : Function.Injective swapVer := by
  intro a b h
  unfold swapVer at h
  split at h <;> split at h <;> (try split at h) <;> (try split at h) <;> omega

/-! ### the first version -/

/-- A set of updates that changes nothing: it just deletes keys that do not exist. -/
def Idle (f : Key → Option Value) (s : Tree.ValueSet) : Prop := ∀ e ∈ s, e.2 = none ∧ f e.1 = none

theorem Holding.idle {H : Hasher D} {t : VTree D} {f : Key → Option Value} (h : Holding H t f) (m : Bool) (s : Tree.ValueSet) :
    (Commit.seq m s).Quiet t ↔ Idle f s := by
  unfold Commit.Quiet Idle
  have : ∀ k, (∀ d, (k, d) ∉ t.entries) ↔ f k = none := by
    intro k
    simp only [h.2]
    cases f k <;> simp
  simp only [this]
  rfl

section
variable {H : Hasher D} {m m' : Bool} {P : List (Key × Value)} {sA sB : Store D}

/-- The contents of one batch. -/
abbrev batchContents (P : List (Key × Value)) : Key → Option Value := contents [P.map (fun e => (e.1, some e.2))]

theorem StoreInv.root_one {w : Version} {s : Store D} (h : StoreInv H w [.batch m P] w s) :
    s.nodes.get ⟨w, []⟩ = some ((treeAt H w [.batch m P] w).toNode H) := (h.facts (Nat.le_refl _) (by simp)).root

theorem sim_start (hA : StoreInv H preGenesisVersion [.batch m P] preGenesisVersion sA) (hB : StoreInv H 0 [.batch m P] 0 sB) :
    Sim shiftVer [] [] (fun _ _ => none) (TreeCache.new sA.reader 0) (TreeCache.new sB.reader 1) := by
  have hr : sA.reader.getNodeOption (.newEmptyPath preGenesisVersion) = _ := hA.root_one
  have h0 : shiftVer preGenesisVersion = 0 := by unfold shiftVer; simp
  have h1 : shiftVer 0 = 1 := by unfold shiftVer preGenesisVersion; simp
  have hread := hA.one_ren hB shiftVer_inj h0
  unfold TreeCache.new
  simp only [hr, if_true]
  exact { root := by simp [NodeKey.newEmptyPath, NodeKey.ren, h0], next := h1.symm, nodes := .empty, newLeaves := rfl, stale := .empty, staleLeaves := rfl, fnodes := .empty, fstale := .empty,
          stats := rfl, roots := rfl, vcache := .empty, vsorted := List.Pairwise.nil,
          vsorted' := List.Pairwise.nil, values := fun _ _ => rfl, reader := hread }

/-- The first version, in both stores. -/
theorem first_version (hA : StoreInv H preGenesisVersion [.batch m P] preGenesisVersion sA) (hB : StoreInv H 0 [.batch m P] 0 sB) (hP : P ≠ [])
    (s : Tree.ValueSet) :
    ∃ cA cB, Tree.putSet H m' 0 s (TreeCache.new sA.reader 0) = .ok cA ∧ Tree.putSet H m' 1 s (TreeCache.new sB.reader 1) = .ok cB ∧
      Sim shiftVer [] [] (fun _ _ => none) cA cB ∧ cA.reader = sA.reader ∧ cB.frozen = .new ∧ cA.nextVersion = 0 ∧ cA.rootNodeKey.path = [] ∧
      (∀ v k, cB.valueCache.get (v, k) = if v = 1 then lastOf s k else none) ∧
      ((Idle (batchContents P) s ∧ cB.nodeCache.entries = [] ∧ cB.staleNodeIndexCache.elems = [] ∧ cB.rootNodeKey = ⟨0, []⟩ ∧
          cB.getNodeOption ⟨0, []⟩ = some ((treeAt H 0 [.batch m P] 0).toNode H)) ∨
        (¬ Idle (batchContents P) s ∧ ¬ (cB.nodeCache.isEmpty = true ∧ cB.staleNodeIndexCache.isEmpty = true))) := by
  obtain ⟨t, a1, a2, a3, a4, a5⟩ := hB.start
  simp only [List.length_singleton, Nat.zero_add] at a1 a2 a3 a4 a5
  have hhold : Holding H t (batchContents P) := by
    have hh := holding_treeAt H 0 [.batch m P] 0
    have hl := a1.run.last (by simp)
    refine ⟨a1.wf0, ?_⟩
    rw [← entries_setVersion 0 t, hl, entries_setVersion]
    exact hh.2
  have hne : t ≠ .empty := by
    rw [hhold.ne_empty]
    obtain ⟨x, hx⟩ := Option.isSome_iff_exists.1 ((lastOf_isSome_iff P (P.head hP).1).2 ⟨_, List.head_mem hP, rfl⟩)
    refine ⟨(P.head hP).1, x, ?_⟩
    show applyUpdates _ _ _ = _
    rw [applyUpdates_lastOf, lastOf_map_some, hx]; rfl
  obtain ⟨cB, e1, e2, e3, e4, e5, e6, e7⟩ := putSet_spec H m' 1 s _ t t a1.cur
  have hsim := (sim_start hA hB).putSet shiftVer_inj H m' 0 s
  have h1 : shiftVer 0 = 1 := by unfold shiftVer preGenesisVersion; simp
  rw [h1, e1] at hsim
  generalize hx : Tree.putSet H m' 0 s (TreeCache.new sA.reader 0) = x at hsim
  cases hsim with
  | @ok cA _ hsim =>
    have hrA : sA.reader.getNodeOption (.newEmptyPath preGenesisVersion) = _ := hA.root_one
    have hnew : TreeCache.new sA.reader 0 = ⟨.newEmptyPath preGenesisVersion, 0, .empty, .empty, 0, .empty, 0, .new, sA.reader⟩ := by
      unfold TreeCache.new
      simp only [hrA, if_true]
    have hnext := Sim.putSet_next s (by rw [hnew]; rfl) hx
    have hrd : cA.reader = sA.reader := (putSet_same s (r := sA.reader) (fun _ => by rw [hnew]) hx).2.trans (by rw [hnew])
    refine ⟨cA, cB, rfl, e1, hsim, hrd, e3.trans a5, hnext.1.trans (by rw [hnew]), hnext.2, ?_, ?_⟩
    · intro v k
      rw [e6]
      have : (TreeCache.new sB.reader 1).valueCache = .empty := rfl
      rw [this]
      simp
    · have hver : t.version = 0 := by have := a1.run.root hne; simp at this; omega
      have hroot := e2.root
      rcases quiet_seq H m' s (ver := 1) hhold.1 with ⟨q1, q2⟩ | ⟨q1, q2⟩
      · left
        have q2 : applySet 1 m' (hashSet H s) t = t := q2
        rw [q2] at e2 hroot
        have hM : ∀ nk, cB.M nk = none := by
          rintro ⟨v, q⟩
          rcases hroot with ⟨_, ht, rk, hM, _⟩ | ⟨_, _, _⟩ | ⟨_, _, _, _, _, _⟩
          · rw [hM]
            split
            · rename_i hv
              cases hh : t.at? H v q with
              | none => rfl
              | some n => have := e2.lt0 _ _ _ hh; omega
            · rfl
          · exact absurd rfl hne
          · exact absurd rfl hne
        refine ⟨(hhold.idle m' s).1 q1, ?_, ?_, ?_, ?_⟩
        · cases hh : cB.nodeCache.entries with
          | nil => rfl
          | cons e l =>
            have := hM e.1
            unfold TreeCache.M FMap.get at this
            rw [hh] at this
            simp [FMap.lookupL] at this
        · cases hh : cB.staleNodeIndexCache.elems with
          | nil => rfl
          | cons e l =>
            obtain ⟨v, q⟩ := e
            have : cB.S ⟨v, q⟩ := by
              show (⟨v, q⟩ : NodeKey) ∈ cB.staleNodeIndexCache.elems
              rw [hh]; simp
            rw [e2.S] at this
            simp [this.2.2] at this
        · rcases hroot with ⟨_, ht, rk, hM, _⟩ | ⟨_, _, _⟩ | ⟨_, _, _, _, _, _⟩
          · rw [rk, hver]
          · exact absurd rfl hne
          · exact absurd rfl hne
        · rw [TreeCache.getNodeOption_eq, hM]
          have := hB.root_one
          unfold TreeCache.base
          rw [e3, a5, e4, a2]
          exact this
      · right
        refine ⟨fun h => q1 ((hhold.idle m' s).2 h), ?_⟩
        rintro ⟨n1, n2⟩
        by_cases hemp : applySet 1 m' (hashSet H s) t = .empty
        · have : cB.S ⟨0, []⟩ := by
            rw [e2.S, hemp]
            refine ⟨by omega, ?_, rfl⟩
            rw [at?_nil H hne, hver, if_pos rfl]; rfl
          have h2 : cB.staleNodeIndexCache.elems = [] := List.isEmpty_iff.1 n2
          have : (⟨0, []⟩ : NodeKey) ∈ cB.staleNodeIndexCache.elems := this
          rw [h2] at this
          cases this
        · have hv1 : (applySet 1 m' (hashSet H s) t).version = 1 := q2.resolve_right hemp
          have h2 : cB.nodeCache.entries = [] := List.isEmpty_iff.1 n1
          generalize applySet 1 m' (hashSet H s) t = t' at *
          rcases hroot with ⟨_, ht, rk, hM, _⟩ | ⟨_, _, _⟩ | ⟨_, _, _, _, _, _⟩
          · have := hM 1 []
            rw [if_pos rfl, at?_nil H hemp, hv1, if_pos rfl] at this
            unfold TreeCache.M FMap.get at this
            rw [h2] at this
            cases this
          · exact absurd rfl hemp
          · exact absurd rfl hemp

/-- The loop of `put_value_sets`, when the first set changes something. -/
theorem sim_loud (hA : StoreInv H preGenesisVersion [.batch m P] preGenesisVersion sA) (hB : StoreInv H 0 [.batch m P] 0 sB) (hP : P ≠ [])
    (s : Tree.ValueSet) (rest : List Tree.ValueSet) (hlen : rest.length + 1 < preGenesisVersion) (hloud : ¬ Idle (batchContents P) s) :
    ResRel (Sim shiftVer [] [] (fun _ _ => none)) (Tree.putSets H m' 0 (s :: rest) (TreeCache.new sA.reader 0))
      (Tree.putSets H m' 1 (s :: rest) (TreeCache.new sB.reader 1)) := by
  obtain ⟨cA, cB, a1, a2, a3, a4, a5, a6, a7, a8, a9⟩ := first_version (m' := m') hA hB hP s
  have hs : ∀ v, v + 1 < preGenesisVersion → shiftVer (v + 1) = shiftVer v + 1 := by
    intro v hv
    unfold shiftVer
    rw [if_neg (by omega), if_neg (by omega)]
  have h9 := (a9.resolve_left (fun h => hloud h.1)).2
  have e1 : cB.nodeCache.isEmpty = cA.nodeCache.isEmpty := a3.nodes.isEmpty
  have e2 : cB.staleNodeIndexCache.isEmpty = cA.staleNodeIndexCache.isEmpty := a3.stale.isEmpty
  unfold Tree.putSets
  rw [a1, a2]
  refine (a3.freeze shiftVer_inj H (by rw [a6]; exact hs 0 (by omega)) (.inr (by rw [← e1, ← e2]; exact h9))).bind (fun x y hxy => ?_)
  obtain ⟨h1, h2, h3⟩ := hxy
  have := h1.putSets shiftVer_inj H m' (0 + 1) rest (by rw [h2, a6]) (by rw [h3, a7]) (fun v _ hv => hs v (by omega)) (fun v hv _ => by
    unfold shiftVer
    split <;> omega)
  rw [show shiftVer (0 + 1) = 1 + 1 by rw [hs 0 (by omega)]; unfold shiftVer preGenesisVersion; simp] at this
  exact this

/-- The loop of a call, when the first set changes something. -/
theorem sim_loud_call (hA : StoreInv H preGenesisVersion [.batch m P] preGenesisVersion sA) (hB : StoreInv H 0 [.batch m P] 0 sB) (hP : P ≠ [])
    (call : UpdateCall) {s : Tree.ValueSet} {rest : List Tree.ValueSet} (hcall : call.sets = s :: rest) (hlen : rest.length + 1 < preGenesisVersion)
    (hloud : ¬ Idle (batchContents P) s) :
    ResRel (Sim shiftVer [] [] (fun _ _ => none)) (call.loop H 0 (TreeCache.new sA.reader 0)) (call.loop H 1 (TreeCache.new sB.reader 1)) := by
  cases call with
  | put m' sets =>
    obtain rfl : sets = s :: rest := hcall
    exact sim_loud hA hB hP s rest hlen hloud
  | batch m' sets =>
    have hl : sets.length < preGenesisVersion := by
      have := congrArg List.length hcall
      simp only [UpdateCall.sets, List.length_map, List.length_cons] at this
      omega
    have hr : sA.reader.getNodeOption (.newEmptyPath preGenesisVersion) = _ := hA.root_one
    have := (sim_start hA hB).batchPutSets shiftVer_inj H m' 0 (sets.zip (sets.map (fun _ => none)))
      (by unfold TreeCache.new; simp only [hr, if_true]) (fun v _ hv => by
        simp only [List.length_zip, List.length_map, Nat.min_self] at hv
        unfold shiftVer
        rw [if_neg (by omega), if_neg (by omega)])
    rw [show shiftVer 0 = 1 by unfold shiftVer preGenesisVersion; simp] at this
    exact this

/-- The loop of `put_value_sets`, when the first set changes nothing. -/
theorem sim_idle (hA : StoreInv H preGenesisVersion [.batch m P] preGenesisVersion sA) (hB : StoreInv H 0 [.batch m P] 0 sB) (hP : P ≠ [])
    (s : Tree.ValueSet) (rest : List Tree.ValueSet) (hlen : rest.length + 1 < preGenesisVersion) (hidle : Idle (batchContents P) s) :
    ∃ st, ResRel (Sim swapVer [(treeAt H 0 [.batch m P] 0).hash H] [st] (fun v k => if v = 0 then lastOf s k else none))
      (Tree.putSets H m' 0 (s :: rest) (TreeCache.new sA.reader 0)) (Tree.putSets H m' 1 rest (TreeCache.new sB.reader 1)) := by
  obtain ⟨cA, cB, a1, a2, a3, a4, a5, a6, a7, a8, a9⟩ := first_version (m' := m') hA hB hP s
  obtain ⟨_, b1, b2, b3, b4⟩ := a9.resolve_right (fun h => h.1 hidle)
  have h0 : shiftVer preGenesisVersion = 0 := by unfold shiftVer; simp
  have hroot : cA.rootNodeKey = ⟨preGenesisVersion, []⟩ := by
    apply NodeKey.ren_inj shiftVer shiftVer_inj
    rw [← a3.root, b3]
    simp [NodeKey.ren, h0]
  have hget := a3.getNodeOption shiftVer_inj ⟨preGenesisVersion, []⟩
  rw [show NodeKey.ren shiftVer ⟨preGenesisVersion, []⟩ = ⟨0, []⟩ by simp [NodeKey.ren, h0], b4] at hget
  obtain ⟨n, hn, hn'⟩ := Option.map_eq_some_iff.1 hget.symm
  have hhash : n.hash H = (treeAt H 0 [.batch m P] 0).hash H := by
    rw [← Node.hash_ren shiftVer H n, hn', toNode_hash]
  have c1 : cA.nodeCache.entries = [] := List.map_eq_nil_iff.1 (b1 ▸ a3.nodes.perm).nil_eq.symm
  have c2 : cA.staleNodeIndexCache.elems = [] := List.map_eq_nil_iff.1 (b2 ▸ a3.stale.perm).nil_eq.symm
  have hfz : cA.freeze H = .ok (cA.pushRoot (n.hash H)).freezeMove := by
    unfold TreeCache.freeze TreeCache.freezeRoot
    rw [hroot, hn]
    simp only [Res.ok_bind]
    unfold TreeCache.freezeCopy
    rw [if_neg (by simp [TreeCache.pushRoot, a6])]
    rfl
  have hl : Tree.putSets H m' 0 (s :: rest) (TreeCache.new sA.reader 0) = Tree.putSets H m' (0 + 1) rest (cA.pushRoot (n.hash H)).freezeMove := by
    simp only [Tree.putSets, a1, hfz, Res.ok_bind]
  rw [hl]
  have f1 := a3.fnodes
  have f2 := a3.fstale
  have f3 := a3.stats
  have f4 := a3.roots
  have f5 := a3.values
  rw [a5] at f1 f2 f3 f4 f5
  have f1 : cA.frozen.nodeCache.nodes.entries = [] := List.map_eq_nil_iff.1 f1.perm.nil_eq.symm
  have f2 : cA.frozen.staleNodeIndexCache.elems = [] := List.map_eq_nil_iff.1 f2.perm.nil_eq.symm
  have f3 : cA.frozen.nodeStats = [] := f3
  have f4 : cA.frozen.rootHashes = [] := f4
  have hread := hA.one_ren hB swapVer_inj (by unfold swapVer; simp)
  have h1 : swapVer (0 + 1) = 1 := by unfold swapVer preGenesisVersion; simp
  refine ⟨⟨cA.nodeCache.size, cA.numNewLeaves, cA.staleNodeIndexCache.size, cA.numStaleLeaves⟩, ?_⟩
  have hsim : Sim swapVer [(treeAt H 0 [.batch m P] 0).hash H] [⟨cA.nodeCache.size, cA.numNewLeaves, cA.staleNodeIndexCache.size, cA.numStaleLeaves⟩]
      (fun v k => if v = 0 then lastOf s k else none) (cA.pushRoot (n.hash H)).freezeMove (TreeCache.new sB.reader 1) := by
    refine {
      root := ?_, next := ?_, nodes := .empty, newLeaves := rfl, stale := .empty, staleLeaves := rfl, fnodes := ?_, fstale := ?_, stats := ?_, roots := ?_,
      vcache := .empty, vsorted := OMap.sorted_extend valueKeyLt_strict _ _ a3.vsorted,
      vsorted' := List.Pairwise.nil, values := ?_, reader := ?_ }
    · show (⟨0, []⟩ : NodeKey) = NodeKey.ren swapVer cA.rootNodeKey
      rw [hroot]
      unfold NodeKey.ren swapVer
      simp
    · show 1 = swapVer (cA.nextVersion + 1)
      rw [a6, h1]
    · show FMap.Ren _ _ (cA.frozen.nodeCache.nodes.extend cA.nodeCache.entries) .empty
      rw [c1, show cA.frozen.nodeCache.nodes = .empty from congrArg FMap.mk f1]
      exact .empty
    · show FSet.Ren _ ((cA.staleNodeIndexCache.elems.map _).foldl FSet.insert cA.frozen.staleNodeIndexCache) .empty
      rw [c2, show cA.frozen.staleNodeIndexCache = .empty from congrArg FSet.mk f2]
      exact .empty
    · show cA.frozen.nodeStats ++ [_] = [_] ++ []
      rw [f3]; rfl
    · show cA.frozen.rootHashes ++ [_] = [_] ++ []
      rw [f4, hhash]; rfl
    · intro v k
      show (OMap.extend valueKeyLt cA.frozen.nodeCache.values cA.valueCache.entries).get _ = (none : Option (Option Value)).or _
      rw [OMap.get_extend valueKeyLt_strict _ _ a3.vsorted a3.vcache.nodup]
      show (cA.valueCache.get (v, k)).or (cA.frozen.nodeCache.values.get (v, k)) = _
      rw [f5]
      have hv := FMap.get_map (g := id) (Sim.renVal_inj shiftVer_inj) a3.vcache (v, k)
      simp only [Option.map_id, id_eq] at hv
      rw [a8] at hv
      rw [← hv]
      have : (shiftVer v = 1) ↔ v = 0 := by
        unfold shiftVer preGenesisVersion
        split <;> omega
      simp only [this]
      cases (if v = 0 then lastOf s k else none) <;> rfl
    · intro nk
      show sB.nodes.get _ = (cA.reader.getNodeOption nk).map _
      rw [a4]
      exact hread nk
  have := hsim.putSets swapVer_inj H m' (0 + 1) rest (by show cA.nextVersion + 1 = _; rw [a6]) a7
    (fun v hv hv' => by unfold swapVer; rw [if_neg (by omega), if_neg (by omega), if_neg (by omega), if_neg (by omega)])
    (fun v hv hv' => by unfold swapVer; rw [if_neg (by omega), if_neg (by omega)])
  rw [h1] at this
  exact this

end

/-! ### the batch of a new genesis -/

theorem Idle.apply {f : Key → Option Value} {s : Tree.ValueSet} (h : Idle f s) : applyUpdates f s = f := by
  funext k
  rw [applyUpdates_lastOf]
  cases hl : lastOf s k with
  | none => rfl
  | some x =>
    obtain ⟨e, he, hk⟩ := (lastOf_isSome_iff s k).1 (by rw [hl]; rfl)
    have hx : x = none := by
      have : ∀ (s : Tree.ValueSet) x, lastOf s k = some x → ∃ e ∈ s, e.2 = x := by
        intro s
        induction s with
        | nil => intro x h; cases h
        | cons a s ih =>
          intro x h
          simp only [lastOf] at h
          cases h1 : lastOf s k with
          | some y =>
            rw [h1] at h
            obtain ⟨e, he, h2⟩ := ih y h1
            cases h
            exact ⟨e, List.mem_cons_of_mem _ he, h2⟩
          | none =>
            rw [h1] at h
            split at h
            · cases h; exact ⟨a, by simp, rfl⟩
            · cases h
      obtain ⟨e, he, hx⟩ := this s x hl
      rw [← hx]; exact (h e he).1
    rw [hx]
    rw [← hk]
    exact ((h e he).2).symm

/-- What the batch of a new genesis is like. -/
structure GenesisBatch (H : Hasher D) (P : List (Key × Value)) (sets : List Tree.ValueSet) (s : Store D) (roots : List D) (b : TreeUpdateBatch D) : Prop where
  len : roots.length = sets.length
  roots : ∀ i, i < sets.length → ∀ L, Lists H (contents (P.map (fun e => (e.1, some e.2)) :: sets.take (i + 1))) L → roots[i]? = some (smtRoot H L)
  nodup : b.nodeBatch.nodes.NodupKeys
  range : ∀ nk, (b.nodeBatch.nodes.get nk).isSome = true → nk.version < sets.length
  noRoot : ∀ x, sets.head? = some x → Idle (batchContents P) x → ∀ q, b.nodeBatch.nodes.get ⟨0, q⟩ = none
  vsorted : OMap.Sorted valueKeyLt b.nodeBatch.values.entries
  vget : ∀ v k, b.nodeBatch.values.get (v, k) = (sets[v]?).bind (fun x => lastOf x k)
  snodup : b.staleNodeIndexBatch.elems.Nodup
  sdom : ∀ i, i ∈ b.staleNodeIndexBatch.elems → i.staleSinceVersion < sets.length
  reads : ∃ (ρ : Version → Version) (hist : List Commit) (s' : Store D), Function.Injective ρ ∧ StoreInv H 0 hist 0 s' ∧
    (∀ nk, s'.nodes.get (NodeKey.ren ρ nk) = ((b.nodeBatch.nodes.get nk).or (s.nodes.get nk)).map (Node.ren ρ)) ∧
    (∀ u, u < sets.length → (∀ x, sets.head? = some x → Idle (batchContents P) x → u ≠ 0) → ρ u < hist.length ∧
      contents ((hist.take (ρ u + 1)).map Commit.updates) = contents (P.map (fun e => (e.1, some e.2)) :: sets.take (u + 1))) ∧
    contents (hist.map Commit.updates) = contents (P.map (fun e => (e.1, some e.2)) :: sets) ∧
    ρ sets.length = hist.length ∧
    (∀ v, (v = 0 → ∀ x, sets.head? = some x → ¬ Idle (batchContents P) x) → v + 1 < preGenesisVersion → ρ (v + 1) = ρ v + 1)

section
variable {H : Hasher D} {m m' : Bool} {P : List (Key × Value)} {sA sB : Store D}

theorem GenesisBatch.of_sim {ρ : Version → Version} {pre : List D} {ps : List NodeStats} {pv : Version → Key → Option (Option Value)}
    {cA cB : TreeCache D} {sets news : List Tree.ValueSet} {cms : List Commit} (hcm : cms.map Commit.updates = news) (hρ : Function.Injective ρ) (h0 : ρ preGenesisVersion = 0)
    (hA : StoreInv H preGenesisVersion [.batch m P] preGenesisVersion sA) (hB : StoreInv H 0 [.batch m P] 0 sB)
    (hs : Sim ρ pre ps pv cA cB) (hb : BatchSpec H 0 [.batch m P] cms 0 sB cB.into.1 cB.into.2)
    (hlen : (pre ++ cB.into.1).length = sets.length)
    (hroots : ∀ i, i < sets.length → ∀ L, Lists H (contents (P.map (fun e => (e.1, some e.2)) :: sets.take (i + 1))) L →
      (pre ++ cB.into.1)[i]? = some (smtRoot H L))
    (hrange : ∀ v, 1 ≤ ρ v → ρ v < 1 + news.length → v < sets.length ∧ ∀ x, sets.head? = some x → Idle (batchContents P) x → v ≠ 0)
    (hval : ∀ v k, (if 1 ≤ ρ v then (news[ρ v - 1]?).bind (fun x => lastOf x k) else none).or (pv v k) = (sets[v]?).bind (fun x => lastOf x k))
    (hcont' : contents (P.map (fun e => (e.1, some e.2)) :: news) = contents (P.map (fun e => (e.1, some e.2)) :: sets))
    (hend : ρ sets.length = 1 + news.length)
    (hstep : ∀ v, (v = 0 → ∀ x, sets.head? = some x → ¬ Idle (batchContents P) x) → v + 1 < preGenesisVersion → ρ (v + 1) = ρ v + 1)
    (hcont : ∀ u, u < sets.length → (∀ x, sets.head? = some x → Idle (batchContents P) x → u ≠ 0) → ρ u < 1 + news.length ∧
      contents (P.map (fun e => (e.1, some e.2)) :: news.take (ρ u)) = contents (P.map (fun e => (e.1, some e.2)) :: sets.take (u + 1))) :
    GenesisBatch H P sets sA cA.into.1 cA.into.2 := by
  have hcl : cms.length = news.length := by rw [← hcm, List.length_map]
  have hnodes : ∀ nk, cB.frozen.nodeCache.nodes.get (NodeKey.ren ρ nk) = (cA.frozen.nodeCache.nodes.get nk).map (Node.ren ρ) :=
    FMap.get_map (NodeKey.ren_inj ρ hρ) hs.fnodes
  have hr : cA.into.1 = pre ++ cB.into.1 := hs.roots
  have hrange' : ∀ nk, (cA.frozen.nodeCache.nodes.get nk).isSome = true → 1 ≤ ρ nk.version ∧ ρ nk.version < 1 + news.length := by
    rintro ⟨v, q⟩ hn
    obtain ⟨n, hn⟩ := Option.isSome_iff_exists.1 hn
    have h1 := hnodes ⟨v, q⟩
    rw [hn] at h1
    have h2 : cB.frozen.nodeCache.nodes.get ⟨ρ v, q⟩ = some (n.ren ρ) := h1
    have h3 := hb.fresh ⟨ρ v, q⟩ (by show (cB.frozen.nodeCache.nodes.get _).isSome = true; rw [h2]; rfl)
    have h4 := hb.inv.dom (ρ v) q (n.ren ρ) (by show (cB.frozen.nodeCache.nodes.get _).or _ = _; rw [h2]; rfl)
    simp [hcl] at h3 h4
    exact ⟨h3, by show ρ v < _; omega⟩
  obtain ⟨s', w1, w2, w3, w4, w5⟩ := hB.write hb
  refine ⟨by rw [hr, hlen], fun i hi L hL => by rw [hr]; exact hroots i hi L hL, ?_, ?_, ?_, hs.vsorted, ?_, ?_, ?_, ρ, _, s', hρ, w2, ?_, ?_, ?_, ?_, hstep⟩
  · exact hs.fnodes.nodup
  · intro nk hn
    have := hrange' nk hn
    exact (hrange _ this.1 this.2).1
  · intro x hx hq q
    cases hn : cA.into.2.nodeBatch.nodes.get ⟨0, q⟩ with
    | none => rfl
    | some n =>
      have := hrange' ⟨0, q⟩ (by show (cA.into.2.nodeBatch.nodes.get _).isSome = true; rw [hn]; rfl)
      exact absurd rfl ((hrange 0 this.1 this.2).2 x hx hq)
  · intro v k
    have h1 : cA.into.2.nodeBatch.values.get (v, k) = _ := hs.values v k
    rw [h1, ← hval v k]
    have h2 : cB.frozen.nodeCache.values.get (ρ v, k) = _ := hb.vget (ρ v) k
    rw [h2]
    congr 1
    simp only [List.length_singleton, Nat.zero_add, List.getElem?_map]
    rw [← hcm, List.getElem?_map]
    split
    · cases cms[ρ v - 1]? <;> rfl
    · rfl
  · exact hs.fstale.nodup
  · intro i hi
    have h1 : (⟨ρ i.staleSinceVersion, i.nodeKey.ren ρ⟩ : StaleNodeIndex) ∈ cB.frozen.staleNodeIndexCache.elems := by
      exact hs.fstale.perm.mem_iff.2 (List.mem_map.2 ⟨i, hi, rfl⟩)
    have h2 := hb.since _ h1
    have h3 := hb.inv.stale (ρ i.staleSinceVersion) (ρ i.nodeKey.version) i.nodeKey.path (.inr h1)
    simp [hcl] at h2 h3
    exact (hrange _ h2 (by omega)).1
  · intro nk
    rw [w3]
    show (cB.frozen.nodeCache.nodes.get _).or _ = ((cA.frozen.nodeCache.nodes.get nk).or _).map _
    rw [hnodes, hA.one_ren hB hρ h0]
    cases cA.frozen.nodeCache.nodes.get nk <;> rfl
  · intro u hu hq
    obtain ⟨h1, h2⟩ := hcont u hu hq
    refine ⟨by simp [hcl]; omega, ?_⟩
    rw [← h2]
    congr 1
    simp [Commit.updates, List.map_take, hcm]
  · rw [← hcont']
    congr 1
    simp [Commit.updates, hcm]
  · rw [hend]; simp [hcl]; omega

theorem genesis_batch (hA : StoreInv H preGenesisVersion [.batch m P] preGenesisVersion sA) (hB : StoreInv H 0 [.batch m P] 0 sB) (hP : P ≠ [])
    (call : UpdateCall) (hf : call.Filled) {s : Tree.ValueSet} {rest : List Tree.ValueSet} (hcall : call.sets = s :: rest) (hlen : rest.length + 1 < preGenesisVersion) :
    ∃ roots b, call.run H sA.reader 0 = .ok (roots, b) ∧ GenesisBatch H P (s :: rest) sA roots b := by
  have hroot : ∀ {news : List Tree.ValueSet} {cms : List Commit} (_ : cms.map Commit.updates = news) {roots : List D} {b : TreeUpdateBatch D}
      (_ : BatchSpec H 0 [.batch m P] cms 0 sB roots b),
      ∀ i, i < news.length → ∀ L, Lists H (contents (P.map (fun e => (e.1, some e.2)) :: news.take (i + 1))) L → roots[i]? = some (smtRoot H L) := by
    intro news cms hcm roots b hb i hi L hL
    have hcl : cms.length = news.length := by rw [← hcm, List.length_map]
    obtain ⟨s', w1, w2, w3, w4, w5⟩ := hB.write hb
    have hf := w2.facts (v := i + 1) (Nat.zero_le _) (by simp [hcl]; omega)
    have h3 : (([Commit.batch m P] ++ cms).take (i + 1 + 1 - 0)).map Commit.updates =
        P.map (fun e => (e.1, some e.2)) :: news.take (i + 1) := by
      simp [Commit.updates, List.map_take, hcm]
    rw [h3] at hf
    rw [hb.roots, ← hf.hash hL]
    simp [hcl, hi]
    congr 2
    omega
  have hleng : ∀ {news : List Tree.ValueSet} {cms : List Commit} (_ : cms.map Commit.updates = news) {roots : List D} {b : TreeUpdateBatch D}
      (_ : BatchSpec H 0 [.batch m P] cms 0 sB roots b), roots.length = news.length := by
    intro news cms hcm roots b hb
    rw [hb.roots, ← hcm]; simp
  by_cases hq : Idle (batchContents P) s
  · obtain ⟨m', rfl⟩ : ∃ m', call = .put m' (s :: rest) := by
      cases call with
      | put m' sets => exact ⟨m', by rw [show sets = s :: rest from hcall]⟩
      | batch m' sets =>
        exfalso
        cases sets with
        | nil => cases hcall
        | cons x l =>
          obtain ⟨h1, _⟩ := List.cons.inj (show (x.map (fun e => (e.1, some e.2))) :: _ = s :: rest from hcall)
          cases x with
          | nil => exact hf m' _ rfl (by simp)
          | cons e x =>
            have := (hq (e.1, some e.2) (by rw [← h1]; simp)).1
            cases this
    have hcm : (rest.map (Commit.seq m')).map Commit.updates = rest := by simp [Commit.updates, Function.comp_def]
    obtain ⟨st, hsim⟩ := sim_idle (m' := m') hA hB hP s rest hlen hq
    obtain ⟨rB, bB, e1, e2⟩ := putValueSets_resume hB m' rest ⟨by simp, by simp⟩
    show ∃ roots b, Tree.putValueSets H m' sA.reader (s :: rest) 0 = .ok (roots, b) ∧ _
    unfold Tree.putValueSets at e1 ⊢
    simp only [List.length_singleton, Nat.zero_add] at e1
    generalize Tree.putSets H m' 0 (s :: rest) (TreeCache.new sA.reader 0) = x at *
    generalize Tree.putSets H m' 1 rest (TreeCache.new sB.reader 1) = y at *
    cases hsim with
    | error e => cases e1
    | @ok cA cB hs =>
      obtain ⟨h1, h2⟩ := Prod.mk.inj (Except.ok.inj e1)
      rw [← h1, ← h2] at e2
      have e2 : BatchSpec H 0 [.batch m P] _ 0 sB cB.into.1 cB.into.2 := e2
      refine ⟨_, _, rfl, ?_⟩
      have hc : ∀ l, contents (P.map (fun e => (e.1, some e.2)) :: s :: l) = contents (P.map (fun e => (e.1, some e.2)) :: l) := by
        intro l
        show List.foldl applyUpdates (applyUpdates (batchContents P) s) l = List.foldl applyUpdates (batchContents P) l
        rw [hq.apply]
      refine GenesisBatch.of_sim hcm swapVer_inj (by unfold swapVer; simp) hA hB hs e2 ?_ ?_ ?_ ?_ (hc rest).symm ?_ ?_ ?_
      · rw [List.length_append, hleng hcm e2]; simp; omega
      · intro i hi L hL
        cases i with
        | zero =>
          rw [List.take_succ_cons, hc] at hL
          have := (hB.facts (v := 0) (Nat.le_refl _) (by simp)).hash hL
          rw [← this]; rfl
        | succ i =>
          rw [List.take_succ_cons, hc] at hL
          simp only [List.singleton_append, List.getElem?_cons_succ]
          exact hroot hcm e2 i (by simpa using hi) L hL
      · intro v hv hv'
        unfold swapVer at hv hv'
        simp only [List.length_cons]
        split at hv
        · omega
        · rw [if_neg (by assumption)] at hv'
          split at hv
          · rw [if_pos (by assumption)] at hv'; omega
          · rw [if_neg (by assumption)] at hv'
            exact ⟨by omega, fun _ _ _ => by assumption⟩
      · intro v k
        unfold swapVer
        by_cases h1 : v = preGenesisVersion
        · have : v ≠ 0 := by unfold preGenesisVersion at h1; omega
          rw [List.getElem?_eq_none (l := s :: rest) (i := v) (by simp; omega), if_pos h1, if_neg this]
          rfl
        · by_cases h2 : v = 0
          · subst h2
            rw [if_neg h1, if_pos rfl, List.getElem?_eq_none (l := rest) (by omega)]
            simp
          · rw [if_neg h1, if_neg h2, if_pos (by omega), if_neg h2]
            obtain ⟨v, rfl⟩ := Nat.exists_eq_succ_of_ne_zero h2
            simp
      · simp only [List.length_cons]
        unfold swapVer
        rw [if_neg (by omega), if_neg (by omega)]
        omega
      · intro v hv hv'
        have h1 : v ≠ 0 := fun h => hv h s rfl hq
        unfold swapVer
        rw [if_neg (by omega), if_neg (by omega), if_neg (by omega), if_neg h1]
      · intro u hu hu'
        have h1 : u ≠ 0 := hu' s rfl hq
        simp only [List.length_cons] at hu
        unfold swapVer
        rw [if_neg (by omega), if_neg h1]
        refine ⟨by omega, ?_⟩
        rw [List.take_succ_cons, hc]
  · have hcm : call.commits.map Commit.updates = s :: rest := by rw [call.commits_updates, hcall]
    have hsim := sim_loud_call hA hB hP call hcall hlen hq
    obtain ⟨rB, bB, e1, e2⟩ := call.resume hB (by simp) hf
    rw [UpdateCall.run_loop] at e1 ⊢
    simp only [List.length_singleton, Nat.zero_add] at e1
    generalize call.loop H 0 (TreeCache.new sA.reader 0) = x at *
    generalize call.loop H 1 (TreeCache.new sB.reader 1) = y at *
    cases hsim with
    | error e => cases e1
    | @ok cA cB hs =>
      obtain ⟨h1, h2⟩ := Prod.mk.inj (Except.ok.inj e1)
      rw [← h1, ← h2] at e2
      have e2 : BatchSpec H 0 [.batch m P] _ 0 sB cB.into.1 cB.into.2 := e2
      refine ⟨_, _, rfl, ?_⟩
      have hlen' : (s :: rest).length < preGenesisVersion := hlen
      refine GenesisBatch.of_sim hcm shiftVer_inj (by unfold shiftVer; simp) hA hB hs e2 ?_ ?_ ?_ ?_ rfl ?_ ?_ ?_
      · rw [List.nil_append, hleng hcm e2]
      · intro i hi L hL
        exact hroot hcm e2 i hi L hL
      · intro v hv hv'
        unfold shiftVer at hv hv'
        split at hv
        · omega
        · rw [if_neg (by assumption)] at hv'
          exact ⟨by omega, fun x hx hx' => by cases hx; exact absurd hx' hq⟩
      · intro v k
        unfold shiftVer
        by_cases h1 : v = preGenesisVersion
        · rw [List.getElem?_eq_none (l := s :: rest) (i := v) (by omega)]
          simp [h1]
        · simp [h1]
      · unfold shiftVer
        rw [if_neg (by omega)]
        omega
      · intro v _ hv'
        unfold shiftVer
        rw [if_neg (by omega), if_neg (by omega)]
      · intro u hu hu'
        unfold shiftVer
        rw [if_neg (by omega)]
        exact ⟨by omega, rfl⟩

end

end Verif.Jmt
