import Verif.Proofs.PmtPuts
import Verif.Proofs.PmtTakes
import Verif.Proofs.PmtNode
import Verif.Proofs.PmtAgain
import Verif.Proofs.PmtTotal
import Verif.Proofs.PmtLight
import Verif.Proofs.PmtRun
/-!
Committing to any database: the node with its children replaced by hashes reads the same.
-/

set_option autoImplicit false

namespace Verif.Pmt

open Spec (Place AnswersAt NodeOk NotHash collapse Small)
open Relation (ReflTransGen TransGen)

variable {db : Db} {K : Keccak}

theorem ReadsSame.branch {cs ds : Fin 16 → Node} (h : ∀ i, ReadsSame db (cs i) (ds i)) (w : Option Bytes) :
    ReadsSame db (.branch cs w) (.branch ds w) := by
  intro q r
  cases q with
  | nil =>
    show Gives db (_, [16]) _ ↔ Gives db (_, [16]) _
    rw [gives_branch_value, gives_branch_value]
  | cons j t =>
    show Gives db (_, j.val :: leafPath t) _ ↔ Gives db (_, j.val :: leafPath t) _
    rw [gives_branch, gives_branch]
    exact h j t r

/-- From the encoding of a node to the item in its parent. -/
theorem item_reads {n : Node} (hn : NodeOk n)
    (raw : ∀ b w, encodeRaw K n = .ok (b, w) → (∀ e ∈ w, db.get e.1 = some e.2) → ReadsSame db n (collapse K n)) {e : Encoded} {w : Written}
    (h : writeNode K n = .ok (e, w)) (hw : ∀ x ∈ w, db.get x.1 = some x.2) : ReadsSame db n (orHash (writeNode K n) (collapse K n)) := by
  by_cases hh : IsHash n
  · cases n <;> first | exact hh.elim | exact .refl _
  · obtain ⟨b, w0, r⟩ := (node_codec (K := K) n hn).1 (notHash_iff.2 hh)
    rw [writeNode_eq n hh, r.eq] at h
    rw [writeNode_eq n hh, r.eq]
    dsimp only at h ⊢
    by_cases hl : b.length < 32
    · have e1 : writeData K b w0 = (.inline b, w0) := if_pos hl
      rw [e1] at h ⊢
      cases h
      exact raw b _ r.eq hw
    · have e1 : writeData K b w0 = (.hash (K b), w0 ++ [(K b, b)]) := if_neg hl
      rw [e1] at h ⊢
      cases h
      refine (raw b _ r.eq (fun x hx => hw x (List.mem_append_left _ hx))).trans fun q r' => ?_
      have hb : db.get (K b) = some b := hw (K b, b) (by simp)
      exact (gives_step (.hash hb (r.dec _ (by omega))) r').symm

/-- A node reads as what is read of its encoding, on a database that has what was written for it. -/
theorem collapse_reads (n : Node) : NodeOk n → ∀ b w, encodeRaw K n = .ok (b, w) → (∀ e ∈ w, db.get e.1 = some e.2) → ReadsSame db n (collapse K n) := by
  induction n with
  | empty => exact fun _ _ _ _ _ => .refl _
  | leaf => exact fun _ _ _ _ _ => .refl _
  | hash => exact fun _ _ _ _ _ => .refl _
  | ext pre m ih =>
    intro hn b w h hw
    obtain ⟨⟨l, rfl, _, _⟩, hm⟩ := hn
    obtain ⟨e, he⟩ := written_ext h
    rw [collapse_ext]
    exact (item_reads hm (ih hm) he hw).ext l
  | branch cs v ih =>
    intro hn b w h hw
    rw [collapse_branch]
    refine .branch (fun i => ?_) v
    obtain ⟨e, wi, he, hwi⟩ := written_branch h i
    exact item_reads (hn.1 i) (ih i (hn.1 i)) he (fun x hx => hw x (hwi x hx))

theorem writeData_hashed {b : Bytes} {w : Written} (h : ∀ x ∈ w, x.1 = K x.2) : ∀ x ∈ (writeData K b w).2, x.1 = K x.2 := by
  unfold writeData
  split
  · exact h
  · intro x hx
    rcases List.mem_append.1 hx with hx | hx
    · exact h x hx
    · cases List.mem_singleton.1 hx
      rfl

theorem writeChildren_hashed {f : Fin 16 → Res (Encoded × Written)} (hf : ∀ i e w, f i = .ok (e, w) → ∀ x ∈ w, x.1 = K x.2) {l : List (Fin 16)}
    {es : List Bytes} {w : Written} (h : writeChildren f l = .ok (es, w)) : ∀ x ∈ w, x.1 = K x.2 := by
  induction l generalizing es w with
  | nil => cases h; intro x hx; cases hx
  | cons j t ih =>
    unfold writeChildren at h
    rcases h1 : f j with e | ⟨e, wj⟩
    · rw [h1] at h; cases h
    · rw [h1] at h
      simp only [Res.ok_bind] at h
      rcases h2 : writeChildren f t with e | ⟨es', w'⟩
      · rw [h2] at h; cases h
      · rw [h2] at h
        cases h
        intro x hx
        rcases List.mem_append.1 hx with hx | hx
        · exact hf j e wj h1 x hx
        · exact ih h2 x hx

/-- What is written is under its hash. -/
theorem writeNode_hashed (n : Node) : ∀ e w, writeNode K n = .ok (e, w) → ∀ x ∈ w, x.1 = K x.2 := by
  induction n with
  | hash => intro e w h; cases h; intro x hx; cases hx
  | empty =>
    intro e w h
    have h' : writeData K [0x80] [] = (e, w) := Except.ok.inj h
    have := writeData_hashed (K := K) (b := [0x80]) (w := []) (fun x hx => by cases hx)
    rw [h'] at this
    exact this
  | leaf k v =>
    intro e w h
    simp only [writeNode] at h
    rcases hk : Nibbles.encodeCompact k with x | c
    · rw [hk] at h; cases h
    · rw [hk] at h
      simp only [Res.ok_bind, Res.pure_eq] at h
      have h' := Except.ok.inj h
      have := writeData_hashed (K := K) (b := Rlp.encodeList [Rlp.encodeData c, Rlp.encodeData v]) (w := []) (fun x hx => by cases hx)
      rw [h'] at this
      exact this
  | ext p m ih =>
    intro e w h
    simp only [writeNode] at h
    rcases hk : Nibbles.encodeCompact p with x | c
    · rw [hk] at h; cases h
    · rw [hk] at h
      simp only [Res.ok_bind] at h
      rcases hm : writeNode K m with x | ⟨e', w'⟩
      · rw [hm] at h; cases h
      · rw [hm] at h
        simp only [Res.ok_bind, Res.pure_eq] at h
        have h' := Except.ok.inj h
        have := writeData_hashed (K := K) (b := Rlp.encodeList [Rlp.encodeData c, e'.item]) (ih e' w' hm)
        rw [h'] at this
        exact this
  | branch cs v ih =>
    intro e w h
    simp only [writeNode] at h
    rcases hm : writeChildren (fun i => writeNode K (cs i)) (List.finRange 16) with x | ⟨es, w'⟩
    · rw [hm] at h; cases h
    · rw [hm] at h
      simp only [Res.ok_bind, Res.pure_eq] at h
      have h' := Except.ok.inj h
      have := writeData_hashed (K := K) (b := Rlp.encodeList (es ++ [valueItem v])) (writeChildren_hashed (K := K) (fun i => ih i) hm)
      rw [h'] at this
      exact this

theorem lookupL_some_of_mem {α β : Type} [DecidableEq α] {l : List (α × β)} {k : α} {v : β} (h : (k, v) ∈ l) : ∃ u, FMap.lookupL l k = some u := by
  induction l with
  | nil => cases h
  | cons e t ih =>
    obtain ⟨a, b⟩ := e
    simp only [FMap.lookupL]
    split
    · exact ⟨b, rfl⟩
    · rename_i hne
      rcases List.mem_cons.1 h with h | h
      · cases h; exact (hne rfl).elim
      · exact ih h

/-- Every entry is under its hash, and has been inserted. -/
def Hashed (K : Keccak) (db : Db) : Prop := ∀ x b, db.get x = some b → K b = x ∧ b ∈ db.log

theorem Hashed.batch (h : Hashed K db) {l : List (H256 × Bytes)} (hl : ∀ e ∈ l, e.1 = K e.2) : Hashed K (db.insertBatch l) := by
  intro x b hb
  rw [insertBatch_get] at hb
  rcases hk : FMap.lookupL l.reverse x with _ | c
  · rw [hk] at hb
    exact ⟨(h x b hb).1, (insertBatch_log l b).2 (.inl (h x b hb).2)⟩
  · rw [hk] at hb
    cases hb
    have hm := List.mem_reverse.1 (mem_of_lookupL hk)
    exact ⟨(hl _ hm).symm, (insertBatch_log l _).2 (.inr (List.mem_map.2 ⟨_, hm, rfl⟩))⟩

theorem Hashed.keeps (h : Hashed K db) {l : List (H256 × Bytes)} (hl : ∀ e ∈ l, e.1 = K e.2) (hc : NoClash K (db.insertBatch l).log) {x : H256}
    {b : Bytes} (hb : db.get x = some b) : (db.insertBatch l).get x = some b := by
  have hg : ∃ c, (db.insertBatch l).get x = some c := by
    rw [insertBatch_get]
    rcases FMap.lookupL l.reverse x with _ | c
    · exact ⟨b, hb⟩
    · exact ⟨c, rfl⟩
  obtain ⟨c, hg⟩ := hg
  obtain ⟨h1, h2⟩ := h.batch hl x c hg
  rw [hg, hc c h2 b ((insertBatch_log l b).2 (.inl (h x b hb).2)) (h1.trans (h x b hb).1.symm)]

theorem Hashed.has (h : Hashed K db) {l : List (H256 × Bytes)} (hl : ∀ e ∈ l, e.1 = K e.2) (hc : NoClash K (db.insertBatch l).log)
    {e : H256 × Bytes} (he : e ∈ l) : (db.insertBatch l).get e.1 = some e.2 := by
  obtain ⟨c, hk⟩ := lookupL_some_of_mem (List.mem_reverse.2 he : (e.1, e.2) ∈ l.reverse)
  have hg : (db.insertBatch l).get e.1 = some c := by rw [insertBatch_get, hk]; rfl
  obtain ⟨h1, h2⟩ := h.batch hl _ c hg
  rw [hg, hc c h2 e.2 ((insertBatch_log l e.2).2 (.inr (List.mem_map.2 ⟨e, he, rfl⟩))) (h1.trans (hl e he))]

/-- What is inserted by a commit. -/
def batchOf (K : Keccak) (tr : Trie) (e : Encoded) (w : Written) : List (H256 × Bytes) :=
  match e with
  | .hash _ => tr.cache ++ w
  | .inline d => tr.cache ++ w ++ [(K d, d)]

def rootOf (K : Keccak) : Encoded → H256
  | .hash h => h
  | .inline d => K d

theorem commit_inv {db' : Db} {tr tr' : Trie} {root : H256} (ha : db.light = false) (hc : tr.commit K db = .ok (tr', db', .ok root)) :
    ∃ e w, writeNode K tr.root = .ok (e, w) ∧ root = rootOf K e ∧ db' = db.insertBatch (batchOf K tr e w) ∧ fetch db' root = .ok tr'.root ∧
      tr'.cache = [] := by
  unfold Trie.commit Trie.writeRoot at hc
  rcases hw : writeNode K tr.root with x | ⟨e, w⟩
  · rw [hw] at hc; cases hc
  · rw [hw] at hc
    refine ⟨e, w, rfl, ?_⟩
    cases e with
    | hash x =>
      simp only [Res.ok_bind, Res.pure_eq] at hc
      rw [removeBatch_archive (by rw [insertBatch_light, ha])] at hc
      split at hc
      · cases hc
      · cases hc
      · cases hc
      · rename_i n hn
        cases hc
        refine ⟨rfl, rfl, ?_, rfl⟩
        unfold fetch
        rw [hn]
    | inline d =>
      simp only [Res.ok_bind, Res.pure_eq] at hc
      rw [removeBatch_archive (by rw [insertBatch_light, ha])] at hc
      split at hc
      · cases hc
      · cases hc
      · cases hc
      · rename_i n hn
        cases hc
        refine ⟨rfl, rfl, ?_, rfl⟩
        unfold fetch
        rw [hn]

theorem batchOf_hashed {tr : Trie} (hcache : ∀ e ∈ tr.cache, e.1 = K e.2) {e : Encoded} {w : Written} (hw : ∀ x ∈ w, x.1 = K x.2) :
    ∀ x ∈ batchOf K tr e w, x.1 = K x.2 := by
  have h1 : ∀ x ∈ tr.cache ++ w, x.1 = K x.2 := fun x hx => (List.mem_append.1 hx).elim (hcache x) (hw x)
  cases e with
  | hash => exact h1
  | inline d =>
    intro x hx
    rcases List.mem_append.1 hx with hx | hx
    · exact h1 x hx
    · cases List.mem_singleton.1 hx; rfl

theorem batchOf_written {tr : Trie} {e : Encoded} {w : Written} : ∀ x ∈ w, x ∈ batchOf K tr e w := by
  intro x hx
  cases e with
  | hash => exact List.mem_append_right _ hx
  | inline d => exact List.mem_append_left _ (List.mem_append_right _ hx)

/-- The root read back reads as the root that was written. -/
theorem commit_reads {db' : Db} {tr tr' : Trie} {root : H256} (ha : db.light = false) (hd : Hashed K db) (hn : NodeOk tr.root)
    (hcache : ∀ e ∈ tr.cache, e.1 = K e.2) (hc : tr.commit K db = .ok (tr', db', .ok root)) (hk : NoClash K db'.log) :
    ReadsSame db' tr.root tr'.root ∧ Hashed K db' ∧ ∀ x b, db.get x = some b → db'.get x = some b := by
  obtain ⟨e, w, hw, hr, hdb, hf, _⟩ := commit_inv ha hc
  have hb := batchOf_hashed (K := K) (e := e) hcache (writeNode_hashed _ _ _ hw)
  rw [hdb] at hk
  refine ⟨?_, by rw [hdb]; exact hd.batch hb, fun x b hx => by rw [hdb]; exact hd.keeps hb hk hx⟩
  have hhas : ∀ x ∈ batchOf K tr e w, db'.get x.1 = some x.2 := fun x hx => by rw [hdb]; exact hd.has hb hk hx
  by_cases hh : IsHash tr.root
  · rcases hroot : tr.root with _ | _ | _ | _ | x
    case hash =>
      rw [hroot] at hw
      cases hw
      rw [show rootOf K (.hash x) = x from rfl] at hr
      subst hr
      obtain ⟨b, h1, h2⟩ := fetch_ok_inv hf
      exact fun q r => gives_step (.hash h1 h2) r
    all_goals rw [hroot] at hh; exact hh.elim
  · obtain ⟨b, w0, r⟩ := (node_codec (K := K) tr.root hn).1 (notHash_iff.2 hh)
    have hraw := collapse_reads (db := db') (K := K) tr.root hn b w0 r.eq
    rw [writeNode_eq _ hh, r.eq] at hw
    dsimp only at hw
    have hin : db'.get (K b) = some b ∧ root = K b ∧ ∀ x ∈ w0, x ∈ batchOf K tr e w := by
      by_cases hl : b.length < 32
      · have e1 : writeData K b w0 = (.inline b, w0) := if_pos hl
        rw [e1] at hw
        cases hw
        exact ⟨hhas (K b, b) (by simp [batchOf]), hr, batchOf_written⟩
      · have e1 : writeData K b w0 = (.hash (K b), w0 ++ [(K b, b)]) := if_neg hl
        rw [e1] at hw
        cases hw
        exact ⟨hhas (K b, b) (batchOf_written _ (by simp)), hr, fun x hx => batchOf_written _ (List.mem_append_left _ hx)⟩
    obtain ⟨h1, h2, h3⟩ := hin
    rw [h2, fetch_ok h1 (r.dec _ (by omega))] at hf
    rw [← Except.ok.inj hf]
    exact hraw (fun x hx => hhas x (h3 x hx))

theorem recover_last {l : List (H256 × Bytes)} {x : H256} {b : Bytes} {n : Node} (hn : decodeNode b = .ok n) :
    recover (db.insertBatch (l ++ [(x, b)])) x = .ok (some n) := by
  have : (db.insertBatch (l ++ [(x, b)])).get x = some b := by
    rw [insertBatch_get, List.reverse_append]
    show (FMap.lookupL ((x, b) :: l.reverse) x).or _ = _
    simp [FMap.lookupL]
  unfold recover
  rw [this]
  simp only [hn]
  rfl

/-- A root that is not a hash can be committed to every archive database. -/
theorem commit_succeeds {tr : Trie} (ha : db.light = false) (hn : NodeOk tr.root) (hh : NotHash tr.root) :
    ∃ b w tr' db', encodeRaw K tr.root = .ok (b, w) ∧ tr.commit K db = .ok (tr', db', .ok (K b)) ∧ tr'.root = collapse K tr.root := by
  obtain ⟨b, w0, r⟩ := (node_codec (K := K) tr.root hn).1 hh
  have hd : decodeNode b = .ok (collapse K tr.root) := r.dec _ (by omega)
  have hw := writeNode_eq (K := K) _ (notHash_iff.1 hh)
  rw [r.eq] at hw
  dsimp only at hw
  refine ⟨b, w0, ?_⟩
  by_cases hl : b.length < 32
  · have e1 : writeData K b w0 = (.inline b, w0) := if_pos hl
    rw [e1] at hw
    refine ⟨?t1, ?d1, r.eq, ?a, ?b⟩
    case a =>
      unfold Trie.commit Trie.writeRoot
      rw [hw]
      simp only [Res.ok_bind, Res.pure_eq]
      rw [removeBatch_archive (by rw [insertBatch_light, ha]), recover_last hd]
    case b => rfl
  · have e1 : writeData K b w0 = (.hash (K b), w0 ++ [(K b, b)]) := if_neg hl
    rw [e1] at hw
    refine ⟨?t1, ?d1, r.eq, ?a, ?b⟩
    case a =>
      unfold Trie.commit Trie.writeRoot
      rw [hw]
      simp only [Res.ok_bind, Res.pure_eq]
      rw [removeBatch_archive (by rw [insertBatch_light, ha])]
      rw [show (tr.addWritten (w0 ++ [(K b, b)])).cache = (tr.cache ++ w0) ++ [(K b, b)] from (List.append_assoc _ _ _).symm, recover_last hd]
      rfl
    case b => rfl

theorem nodeOk_of {n : Node} (h : Spec.Shaped n) : Small n → NodeOk n := by
  induction h with
  | empty => exact id
  | hash => exact id
  | leaf p v =>
    rintro ⟨h1, h2, h3⟩
    exact ⟨⟨p, rfl, by simpa using h1⟩, h3⟩
  | ext hp _ ih =>
    rintro ⟨h1, h2⟩
    exact ⟨⟨_, rfl, hp, by simpa using h1⟩, ih h2⟩
  | branch v _ ih => exact fun ⟨h1, h2⟩ => ⟨fun i => ih i (h1 i), h2⟩

theorem branchInsert_small {cs : Fin 16 → Node} {v : Option Bytes} {i : Nat} {n : Node} {r : (Fin 16 → Node) × Option Bytes}
    (h : branchInsert cs v i n = .ok r) (hb : Small (.branch cs v)) (hn : Small n) : Small (.branch r.1 r.2) := by
  unfold branchInsert at h
  split at h
  · split at h
    · cases h
      exact ⟨hb.1, fun u hu => by cases hu; exact hn.2⟩
    · cases h
  · split at h
    · cases h
      refine ⟨fun j => ?_, hb.2⟩
      dsimp only
      split
      · exact hn
      · exact hb.1 j
    · cases h

theorem offset_small {p q : Nibbles} {i : Nat} (h : offset p i = .ok q) : q.length ≤ p.length := by
  unfold offset at h
  split at h <;> cases h
  simp

theorem insertLeaf_small {key p : Nibbles} {old v : Bytes} {m : Node} (h : insertLeaf key old p v = .ok m) (hk : Small (.leaf key old))
    (hp : Small (.leaf p v)) (hc : Nibbles.commonPrefix p key ≤ 2 ^ 60) : Small m := by
  unfold insertLeaf at h
  dsimp only at h
  split at h
  · cases h
    exact ⟨hk.1, hp.2⟩
  · rcases h1 : offset key (Nibbles.commonPrefix p key + 1) with e | k1
    · rw [h1] at h; cases h
    rw [h1] at h
    simp only [Res.ok_bind] at h
    rcases h2 : at' key (Nibbles.commonPrefix p key) with e | i1
    · rw [h2] at h; cases h
    rw [h2] at h
    simp only [Res.ok_bind] at h
    rcases h3 : branchInsert (fun _ => .empty) none i1 (.leaf k1 old) with e | r1
    · rw [h3] at h; cases h
    rw [h3] at h
    simp only [Res.ok_bind] at h
    rcases h4 : offset p (Nibbles.commonPrefix p key + 1) with e | k2
    · rw [h4] at h; cases h
    rw [h4] at h
    simp only [Res.ok_bind] at h
    rcases h5 : at' p (Nibbles.commonPrefix p key) with e | i2
    · rw [h5] at h; cases h
    rw [h5] at h
    simp only [Res.ok_bind] at h
    rcases h6 : branchInsert r1.1 r1.2 i2 (.leaf k2 v) with e | r2
    · rw [h6] at h; cases h
    rw [h6] at h
    simp only [Res.ok_bind] at h
    have s1 := branchInsert_small h3 ⟨fun _ => trivial, fun u hu => by cases hu⟩ ⟨(offset_small h1).trans hk.1, hk.2⟩
    have s2 := branchInsert_small h6 s1 ⟨(offset_small h4).trans hp.1, hp.2⟩
    split at h
    · cases h; exact s2
    · cases h
      refine ⟨?_, s2⟩
      rw [List.length_take]
      omega

theorem insertSplit_small {pre p : Nibbles} {sub : Node} {v : Bytes} {m : Node} (h : insertSplit pre sub p v = .ok m)
    (hk : Small (.ext pre sub)) (hp : Small (.leaf p v)) : Small m := by
  unfold insertSplit at h
  rcases h2 : at' pre 0 with e | i1
  · rw [h2] at h; cases h
  rw [h2] at h
  simp only [Res.ok_bind] at h
  rcases h3 : branchInsert (fun _ => .empty) none i1 (if pre.length = 1 then sub else .ext (pre.drop 1) sub) with e | r1
  · rw [h3] at h; cases h
  rw [h3] at h
  simp only [Res.ok_bind] at h
  rcases h5 : at' p 0 with e | x
  · rw [h5] at h; cases h
  rw [h5] at h
  simp only [Res.ok_bind] at h
  have s1 : Small (.branch r1.1 r1.2) := by
    refine branchInsert_small h3 ⟨fun _ => trivial, fun u hu => by cases hu⟩ ?_
    split
    · exact hk.2
    · exact ⟨by have := hk.1; rw [List.length_drop]; omega, hk.2⟩
  split at h
  · cases h
    exact ⟨s1.1, fun u hu => by cases hu; exact hp.2⟩
  · split at h
    · cases h
      refine ⟨fun j => ?_, s1.2⟩
      dsimp only
      split
      · exact ⟨by have := hp.1; rw [List.length_drop]; omega, hp.2⟩
      · exact s1.1 j
    · cases h

theorem insertStep_small {hop : H256 → Nibbles → Out Node} {v : Bytes} (hv : v ≠ [] ∧ v.length < 2 ^ 60)
    (hh : ∀ x p m, p.length ≤ 2 ^ 60 → (hop x p).2 = .ok m → Small m) (n : Node) :
    Small n → ∀ p m, p.length ≤ 2 ^ 60 → (insertStep hop v n p).2 = .ok m → Small m := by
  induction n with
  | empty =>
    intro _ p m hp h
    cases h
    exact ⟨by omega, hv⟩
  | hash x => exact fun _ p m hp h => hh x p m hp h
  | leaf key old => exact fun hn p m hp h => insertLeaf_small h hn ⟨by omega, hv⟩ ((commonPrefix_le p key).trans hp)
  | ext pre sub ih =>
    intro hn p m hp h
    simp only [insertStep] at h
    split at h
    · exact insertSplit_small h hn ⟨by omega, hv⟩
    · split at h
      · rcases hs : (insertStep hop v sub (p.drop (Nibbles.commonPrefix p pre))).2 with e | k
        · simp only [Out.map, hs] at h
          cases h
        · simp only [Out.map, hs] at h
          cases h
          exact ⟨hn.1, ih hn.2 _ _ (by rw [List.length_drop]; omega) hs⟩
      · rcases hs : insertSplit (pre.drop (Nibbles.commonPrefix p pre)) sub (p.drop (Nibbles.commonPrefix p pre)) v with e | k
        · rw [hs] at h; cases h
        · rw [hs] at h
          cases h
          refine ⟨by have := hn.1; rw [List.length_take]; omega, insertSplit_small hs ⟨by have := hn.1; rw [List.length_drop]; omega, hn.2⟩ ⟨by rw [List.length_drop]; omega, hv⟩⟩
  | branch cs w ih =>
    intro hn p m hp h
    cases p with
    | nil => cases h
    | cons x t =>
      simp only [insertStep] at h
      split at h
      · cases h
        exact ⟨hn.1, fun u hu => by cases hu; exact hv⟩
      · split at h
        · rename_i hx
          rcases hs : (insertStep hop v (cs ⟨x, hx⟩) t).2 with e | k
          · simp only [Out.map, hs] at h
            cases h
          · simp only [Out.map, hs] at h
            cases h
            refine ⟨fun j => ?_, hn.2⟩
            dsimp only
            split
            · exact ih _ (hn.1 _) _ _ (by simp only [List.length_cons] at hp; omega) hs
            · exact hn.1 j
        · cases h

theorem insertAt_small {v : Bytes} (hv : v ≠ [] ∧ v.length < 2 ^ 60) (hd : ∀ x n, fetch db x = .ok n → Small n) (fuel : Nat) :
    ∀ n, Small n → ∀ p m, p.length ≤ 2 ^ 60 → (insertAt db v fuel n p).2 = .ok m → Small m := by
  induction fuel with
  | zero => exact insertStep_small hv (fun _ _ _ _ h => by cases h)
  | succ f ih =>
    refine insertStep_small hv (fun x p m hp h => ?_)
    unfold Out.andThen at h
    rcases hf : fetch db x with e | n
    · rw [hf] at h; cases h
    · rw [hf] at h
      exact ih n (hd x n hf) p m hp h

theorem resBind_ok {α β : Type} {x : Res α} {f : α → Res β} {b : β} (h : (x >>= f) = .ok b) : ∃ a, x = .ok a ∧ f a = .ok b := by
  cases x with
  | error e => cases h
  | ok a => exact ⟨a, rfl, h⟩

theorem insertLeaf_notHash {key p : Nibbles} {old v : Bytes} {m : Node} (h : insertLeaf key old p v = .ok m) : NotHash m := by
  unfold insertLeaf at h
  dsimp only at h
  split at h
  · cases h; trivial
  · obtain ⟨k1, _, h⟩ := resBind_ok h
    obtain ⟨i1, _, h⟩ := resBind_ok h
    obtain ⟨r1, _, h⟩ := resBind_ok h
    obtain ⟨k2, _, h⟩ := resBind_ok h
    obtain ⟨i2, _, h⟩ := resBind_ok h
    obtain ⟨r2, _, h⟩ := resBind_ok h
    split at h <;> cases h <;> trivial

theorem insertSplit_notHash {pre p : Nibbles} {sub : Node} {v : Bytes} {m : Node} (h : insertSplit pre sub p v = .ok m) : NotHash m := by
  unfold insertSplit at h
  obtain ⟨k1, _, h⟩ := resBind_ok h
  obtain ⟨i1, _, h⟩ := resBind_ok h
  obtain ⟨r1, _, h⟩ := resBind_ok h
  split at h
  · cases h; trivial
  · split at h <;> cases h
    trivial

theorem outMap_ok {α β : Type} {f : α → β} {x : Out α} {m : β} (h : (x.map f).2 = .ok m) : ∃ k, x.2 = .ok k ∧ m = f k := by
  unfold Out.map at h
  rcases hx : x.2 with e | k
  · rw [hx] at h; cases h
  · rw [hx] at h; cases h; exact ⟨k, rfl, rfl⟩

/-- What comes of an insertion is a node, not a hash. -/
theorem insertStep_notHash {hop : H256 → Nibbles → Out Node} {v : Bytes} (hh : ∀ x p m, (hop x p).2 = .ok m → NotHash m) (n : Node) (p : Nibbles)
    (m : Node) (h : (insertStep hop v n p).2 = .ok m) : NotHash m := by
  cases n with
  | empty => cases h; trivial
  | hash x => exact hh x p m h
  | leaf key old => exact insertLeaf_notHash h
  | ext pre sub =>
    simp only [insertStep] at h
    split at h
    · exact insertSplit_notHash h
    · split at h
      · obtain ⟨k, _, rfl⟩ := outMap_ok h; trivial
      · rcases hs : insertSplit (pre.drop (Nibbles.commonPrefix p pre)) sub (p.drop (Nibbles.commonPrefix p pre)) v with e | k
        · rw [hs] at h; cases h
        · rw [hs] at h; cases h; trivial
  | branch cs w =>
    cases p with
    | nil => cases h
    | cons x t =>
      simp only [insertStep] at h
      split at h
      · cases h; trivial
      · split at h
        · obtain ⟨k, _, rfl⟩ := outMap_ok h; trivial
        · cases h

theorem insertAt_notHash {v : Bytes} (fuel : Nat) : ∀ n p m, (insertAt db v fuel n p).2 = .ok m → NotHash m := by
  induction fuel with
  | zero => exact insertStep_notHash (fun _ _ _ h => by cases h)
  | succ f ih =>
    refine insertStep_notHash (fun x p m h => ?_)
    unfold Out.andThen at h
    rcases hf : fetch db x with e | n
    · rw [hf] at h; cases h
    · rw [hf] at h
      exact ih n p m h

/-- The database without pruning. -/
def unpruned (db : Db) : Db := { db with light := false }

theorem insertBatch_unpruned (l : List (H256 × Bytes)) (db : Db) : (unpruned db).insertBatch l = unpruned (db.insertBatch l) := by
  unfold Db.insertBatch
  induction l generalizing db with
  | nil => rfl
  | cons e t ih =>
    rw [List.foldl_cons, List.foldl_cons, ← ih]
    rfl

/-- A commit is one without pruning, and the removal of entries after it. -/
theorem commit_unpruned {db' : Db} {tr tr' : Trie} {root : H256} (hc : tr.commit K db = .ok (tr', db', .ok root)) :
    ∃ dm, tr.commit K (unpruned db) = .ok (tr', dm, .ok root) ∧ dm.log = db'.log ∧ ∀ x b, db'.get x = some b → dm.get x = some b := by
  unfold Trie.commit at hc ⊢
  rcases hw : tr.writeRoot K with x | ⟨t, h⟩
  · rw [hw] at hc; cases hc
  · rw [hw] at hc
    simp only [Res.ok_bind] at hc ⊢
    rw [insertBatch_unpruned, removeBatch_archive rfl]
    split at hc
    · cases hc
    · cases hc
    · cases hc
    · rename_i n hn
      cases hc
      have hf : fetch ((db.insertBatch t.cache).removeBatch (t.passingKeys.filter (fun k => !(t.genKeys.contains k)))) root = .ok n := by
        unfold fetch
        rw [hn]
      obtain ⟨b, hb, hd⟩ := fetch_ok_inv hf
      have hb' : (db.insertBatch t.cache).get root = some b := removeBatch_within _ _ root b hb
      have hr : recover (unpruned (db.insertBatch t.cache)) root = .ok (some n) := by
        unfold recover
        rw [show (unpruned (db.insertBatch t.cache)).get root = some b from hb']
        simp only [hd]
        rfl
      rw [hr]
      exact ⟨_, rfl, (removeBatch_log _ (db.insertBatch t.cache)).symm, fun x b hb => removeBatch_within _ (db.insertBatch t.cache) x b hb⟩

end Verif.Pmt
