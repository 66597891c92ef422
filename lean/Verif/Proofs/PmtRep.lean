import Verif.Proofs.PmtCodec
/-!
Nodes standing for trees: hash nodes are resolved through the stored encodings.
-/

set_option autoImplicit false

namespace Verif.Pmt

open PT

/-- All long proper subtrees are stored. -/
def Below (K : Keccak) (S : Bytes → Prop) : PT → Prop
  | .empty => True
  | .leaf _ _ => True
  | .ext _ t => (32 ≤ (enc K t).length → S (enc K t)) ∧ Below K S t
  | .branch cs _ => ∀ i, (32 ≤ (enc K (cs i)).length → S (enc K (cs i))) ∧ Below K S (cs i)

/-- The tree is stored: the encoding of its root and all long subtrees. -/
def Held (K : Keccak) (S : Bytes → Prop) (t : PT) : Prop := S (enc K t) ∧ Below K S t

/-- A node stands for a tree, given the stored encodings. -/
inductive Rep (K : Keccak) (S : Bytes → Prop) : Node → PT → Prop
  | empty : Rep K S .empty .empty
  | leaf (k : List Nib) (v : Bytes) : Rep K S (.leaf (leafPath k) v) (.leaf k v)
  | ext (p : List Nib) {n : Node} {t : PT} (h : Rep K S n t) : Rep K S (.ext (toNibs p) n) (.ext p t)
  | branch {cs : Fin 16 → Node} {ts : Nib → PT} (v : Option Bytes) (h : ∀ i, Rep K S (cs i) (ts i)) :
      Rep K S (.branch cs v) (.branch ts v)
  | hash {t : PT} (hl : 32 ≤ (enc K t).length) (h : Held K S t) : Rep K S (.hash (K (enc K t))) t

/-- The root of a trie: also a short node may be given by its hash. -/
inductive RepRoot (K : Keccak) (S : Bytes → Prop) : Node → PT → Prop
  | node {n : Node} {t : PT} (h : Rep K S n t) : RepRoot K S n t
  | hash {t : PT} (h : Held K S t) : RepRoot K S (.hash (K (enc K t))) t

/-- The database gives the stored encodings. -/
def Reads (K : Keccak) (S : Bytes → Prop) (db : Db) : Prop := ∀ b, S b → db.get (K b) = some b

def IsHash : Node → Prop
  | .hash _ => True
  | _ => False

variable {K : Keccak} {S : Bytes → Prop} {db : Db}

theorem Below.mono {S' : Bytes → Prop} (hS : ∀ b, S b → S' b) {t : PT} (h : Below K S t) : Below K S' t := by
  induction t with
  | empty => trivial
  | leaf k v => trivial
  | ext p t ih => exact ⟨fun hl => hS _ (h.1 hl), ih h.2⟩
  | branch cs v ih => exact fun i => ⟨fun hl => hS _ ((h i).1 hl), ih i (h i).2⟩

theorem Rep.mono {S' : Bytes → Prop} (hS : ∀ b, S b → S' b) {n : Node} {t : PT} (h : Rep K S n t) : Rep K S' n t := by
  induction h with
  | empty => exact .empty
  | leaf k v => exact .leaf k v
  | ext p h ih => exact .ext p ih
  | branch v h ih => exact .branch v ih
  | hash hl h => exact .hash hl ⟨hS _ h.1, h.2.mono hS⟩

theorem RepRoot.mono {S' : Bytes → Prop} (hS : ∀ b, S b → S' b) {n : Node} {t : PT} (h : RepRoot K S n t) : RepRoot K S' n t := by
  cases h with
  | node h => exact .node (h.mono hS)
  | hash h => exact .hash ⟨hS _ h.1, h.2.mono hS⟩

theorem top_not_hash (t : PT) : ¬ IsHash (top K t) := by
  cases t <;> simp [top, IsHash]

theorem rep_top {t : PT} (h : Below K S t) : Rep K S (top K t) t := by
  induction t with
  | empty => exact .empty
  | leaf k v => exact .leaf k v
  | ext p t ih =>
    refine .ext p ?_
    split
    · exact ih h.2
    · next hl => exact .hash (by omega) ⟨h.1 (by omega), h.2⟩
  | branch cs v ih =>
    refine .branch v fun i => ?_
    split
    · exact ih i (h i).2
    · next hl => exact .hash (by omega) ⟨(h i).1 (by omega), (h i).2⟩

theorem rep_empty {n : Node} {t : PT} (h : Rep K S n t) : n = .empty ↔ t = .empty := by
  cases h with
  | hash hl _ =>
    constructor
    · intro h; cases h
    · rintro rfl; simp [enc] at hl
  | _ => simp

theorem fetch_held (hR : Reads K S db) {t : PT} (h : Held K S t) (hok : Ok t (2 ^ 60)) : fetch db (K (enc K t)) = .ok (top K t) := by
  unfold fetch recover
  rw [hR _ h.1]
  simp only
  rw [decodeNode_enc hok]
  rfl

/-! ### get -/

theorem getAt_branch_nil (fuel : Nat) (cs : Fin 16 → Node) (v : Option Bytes) : getAt db fuel (.branch cs v) (leafPath []) = .ok v := by
  cases fuel <;> rfl

theorem getAt_branch_cons (fuel : Nat) (cs : Fin 16 → Node) (v : Option Bytes) (i : Nib) (p : List Nib) :
    getAt db fuel (.branch cs v) (leafPath (i :: p)) = getAt db fuel (cs i) (leafPath p) := by
  have hi := i.isLt
  have h1 : i.val ≠ 16 := by omega
  cases fuel
  · simp only [getAt, leafPath, toNibs_cons, List.cons_append, getStep, h1, if_false, hi, dite_true]
  · simp only [getAt, leafPath, toNibs_cons, List.cons_append, getStep, h1, if_false, hi, dite_true]

theorem getAt_ext (fuel : Nat) (q : List Nib) (n : Node) (p : List Nib) :
    getAt db fuel (.ext (toNibs q) n) (leafPath p)
      = if lcp p q = q.length then getAt db fuel n (leafPath (p.drop q.length)) else .ok none := by
  have key : lcp p q = q.length → (leafPath p).drop q.length = leafPath (p.drop q.length) := by
    intro h
    obtain ⟨r, rfl⟩ := lcp_eq_length.1 h
    rw [leafPath_drop, List.drop_left' rfl]
  cases fuel
  · simp only [getAt, getStep, commonPrefix_toNibs, toNibs_length]
    split
    · next h => rw [key h]
    · rfl
  · simp only [getAt, getStep, commonPrefix_toNibs, toNibs_length]
    split
    · next h => rw [key h]
    · rfl

theorem getAt_hash (fuel : Nat) (h : H256) (p : Nibbles) :
    getAt db (fuel + 1) (.hash h) p = match fetch db h with | .error e => .error e | .ok n => getAt db fuel n p := rfl

theorem getAt_held {t : PT} (hR : Reads K S db) (hok : Ok t (2 ^ 60)) (h : Held K S t)
    (ih : ∀ (n : Node) (fuel : Nat) (p : List Nib), Rep K S n t → ¬ IsHash n → p.length ≤ fuel →
      getAt db fuel n (leafPath p) = .ok (t.get p))
    (fuel : Nat) (p : List Nib) (hf : p.length + 1 ≤ fuel) : getAt db fuel (.hash (K (enc K t))) (leafPath p) = .ok (t.get p) := by
  cases fuel with
  | zero => omega
  | succ f =>
    rw [getAt_hash, fetch_held hR h hok]
    exact ih _ f p (rep_top h.2) (top_not_hash t) (by omega)

theorem getAt_node {t : PT} (hR : Reads K S db) (hok : Ok t (2 ^ 60)) (n : Node) (fuel : Nat) (p : List Nib) (h : Rep K S n t)
    (hn : ¬ IsHash n) (hf : p.length ≤ fuel) : getAt db fuel n (leafPath p) = .ok (t.get p) := by
  induction t generalizing n fuel p with
  | empty =>
    cases h with
    | empty => cases fuel <;> rfl
    | hash => exact absurd trivial hn
  | leaf k v =>
    cases h with
    | leaf =>
      have : getAt db fuel (.leaf (leafPath k) v) (leafPath p) = .ok (if leafPath k = leafPath p then some v else none) := by
        cases fuel <;> rfl
      rw [this]
      simp only [leafPath_inj, PT.get]
    | hash => exact absurd trivial hn
  | ext q s ih =>
    cases h with
    | hash => exact absurd trivial hn
    | ext _ h =>
      rename_i m
      have hok' := ok_sub hok
      rw [getAt_ext]
      simp only [PT.get]
      split
      · next hq =>
        obtain ⟨r, rfl⟩ := lcp_eq_length.1 hq
        rw [List.drop_left' rfl]
        have hq0 : 0 < q.length := List.length_pos_iff.2 hok.1
        rw [List.length_append] at hf
        by_cases hm : IsHash m
        · cases h with
          | hash hl h => exact getAt_held hR hok' h (fun n f p h hn hf => ih hok' n f p h hn hf) fuel r (by omega)
          | _ => exact hm.elim
        · exact ih hok' m fuel r h hm (by omega)
      · rfl
  | branch cs v ih =>
    cases h with
    | hash => exact absurd trivial hn
    | branch _ h =>
      rename_i ns
      cases p with
      | nil => rw [getAt_branch_nil]; rfl
      | cons i r =>
        rw [getAt_branch_cons]
        have hok' := ok_child hok i
        have h := h i
        simp only [List.length_cons] at hf
        by_cases hm : IsHash (ns i)
        · generalize ns i = m at *
          generalize hc : cs i = c at *
          cases h with
          | hash hl h =>
            subst hc
            exact getAt_held hR hok' h (fun n f p h hn hf => ih i hok' n f p h hn hf) fuel r (by omega)
          | _ => exact hm.elim
        · exact ih i hok' (ns i) fuel r h hm (by omega)

theorem getAt_root {t : PT} (hR : Reads K S db) (hok : Ok t (2 ^ 60)) {n : Node} {fuel : Nat} {p : List Nib} (h : RepRoot K S n t)
    (hf : p.length + 1 ≤ fuel) : getAt db fuel n (leafPath p) = .ok (t.get p) := by
  have key := fun n fuel p => getAt_node (n := n) (fuel := fuel) (p := p) hR hok
  have hash := fun (h : Held K S t) => getAt_held hR hok h key fuel p hf
  cases h with
  | hash h => exact hash h
  | node h =>
    by_cases hm : IsHash n
    · cases h with
      | hash hl h => exact hash h
      | _ => exact hm.elim
    · exact key n fuel p h hm (by omega)

theorem hops_ge (p : List Nib) : p.length + 1 ≤ hops db (leafPath p) := by
  unfold hops
  rw [leafPath_length]
  have : (p.length + 1 + 1) * 1 ≤ (p.length + 1 + 1) * (db.len + 1) := Nat.mul_le_mul_left _ (by omega)
  omega

/-! ### insert -/

/-- Result of an update of a node. -/
def Inserted (K : Keccak) (S : Bytes → Prop) (x : Out Node) (t : PT) : Prop := ∃ n, x.2 = .ok n ∧ Rep K S n t

theorem branchInsert_rep {cs : Fin 16 → Node} {ts : Nib → PT} {v : Option Bytes} (h : ∀ i, Rep K S (cs i) (ts i)) (q : List Nib)
    (w : Bytes) : ∃ x rest cs' v', leafPath q = x :: rest ∧ branchInsert cs v x (.leaf rest w) = .ok (cs', v') ∧
      Rep K S (.branch cs' v') (put ts v q w) := by
  cases q with
  | nil =>
    exact ⟨16, [], cs, some w, rfl, rfl, .branch _ h⟩
  | cons i t =>
    have hi := i.isLt
    refine ⟨i.val, leafPath t, fun j => if j = i then .leaf (leafPath t) w else cs j, v, rfl, ?_, ?_⟩
    · unfold branchInsert
      rw [if_neg (by omega), dif_pos hi]
    · refine .branch v fun j => ?_
      simp only [upd]
      split
      · exact .leaf t w
      · exact h j

theorem rep_mk {p : List Nib} {n : Node} {t : PT} (h : Rep K S n t) : Rep K S (if p = [] then n else .ext (toNibs p) n) (mk p t) := by
  unfold mk
  split
  · exact h
  · exact .ext p h

theorem put_branch (cs : Nib → PT) (v : Option Bytes) (q : List Nib) (w : Bytes) : ∃ cs' v', put cs v q w = .branch cs' v' := by
  cases q with
  | nil => exact ⟨_, _, rfl⟩
  | cons i t => exact ⟨_, _, rfl⟩

theorem rep_branch_inv {cs : Fin 16 → Node} {v w : Option Bytes} {ts : Nib → PT} (h : Rep K S (.branch cs v) (.branch ts w)) :
    v = w ∧ ∀ i, Rep K S (cs i) (ts i) := by
  cases h with
  | branch _ h => exact ⟨rfl, h⟩

theorem leafPath_split {c q : List Nib} {x : Nat} {rest : Nibbles} (h : leafPath q = x :: rest) :
    offset (leafPath (c ++ q)) (c.length + 1) = .ok rest ∧ at' (leafPath (c ++ q)) c.length = .ok x := by
  have e : leafPath (c ++ q) = toNibs c ++ x :: rest := by rw [leafPath_append, h]
  have hl : (toNibs c).length = c.length := toNibs_length c
  constructor
  · unfold offset
    rw [e, if_pos (by simp)]
    congr 1
    rw [← hl, ← List.drop_drop, List.drop_left' rfl]
    rfl
  · unfold at'
    rw [e, ← hl]
    simp

theorem insertLeaf_rep (k p : List Nib) (w v : Bytes) :
    ∃ n, insertLeaf (leafPath k) w (leafPath p) v = .ok n ∧ Rep K S n ((PT.leaf k w).insert v p) := by
  unfold insertLeaf
  simp only [commonPrefix_leaf, leafPath_length]
  by_cases hkp : k = p
  · subst hkp
    refine ⟨.leaf (leafPath k) v, by simp, ?_⟩
    simp only [PT.insert, if_true]
    exact .leaf k v
  · have hpk : p ≠ k := Ne.symm hkp
    rw [if_neg hpk]
    obtain ⟨c, p', k', rfl, rfl, h3, h4⟩ := lcp_split p k
    rw [h3, if_neg (by simp only [List.length_append]; omega)]
    obtain ⟨x1, r1, cs1, v1, e1, b1, rep1⟩ := branchInsert_rep (K := K) (S := S) (cs := fun _ => .empty) (ts := fun _ => .empty)
      (v := none) (fun _ => .empty) k' w
    obtain ⟨cst, vt, hput⟩ := put_branch (fun _ => .empty) none k' w
    rw [hput] at rep1
    obtain ⟨rfl, rep1c⟩ := rep_branch_inv rep1
    obtain ⟨x2, r2, cs2, v2, e2, b2, rep2⟩ := branchInsert_rep (K := K) (S := S) (v := v1) rep1c p' v
    rw [(leafPath_split (c := c) e1).1, (leafPath_split (c := c) e1).2, (leafPath_split (c := c) e2).1, (leafPath_split (c := c) e2).2]
    simp only [Res.ok_bind, b1, b2]
    have htwo : two k' w p' v = put cst v1 p' v := by
      cases k' with
      | nil => simp only [put] at hput; cases hput; rfl
      | cons i t => simp only [put] at hput; cases hput; rfl
    refine ⟨if c = [] then .branch cs2 v2 else .ext (toNibs c) (.branch cs2 v2), ?_, ?_⟩
    · by_cases hc : c = []
      · subst hc; simp
      · have : c.length ≠ 0 := fun h => hc (List.length_eq_zero_iff.1 h)
        simp only [hc, this, if_false, leafPath_take]
        rfl
    · simp only [PT.insert, hkp, if_false, h3, List.take_left', List.drop_left', htwo]
      exact rep_mk rep2

theorem insertSplit_rep {i : Nib} {t : List Nib} {sub : Node} {s : PT} (h : Rep K S sub s) {p : List Nib} (hp : Apart p (i :: t))
    (v : Bytes) : ∃ n, insertSplit (toNibs (i :: t)) sub (leafPath p) v = .ok n ∧ Rep K S n (split (i :: t) s p v) := by
  have hi := i.isLt
  unfold insertSplit
  have e0 : at' (toNibs (i :: t)) 0 = .ok i.val := rfl
  rw [e0]
  simp only [Res.ok_bind, toNibs_length, List.length_cons, toNibs_cons, List.drop_one, List.tail_cons]
  have hsub : (if t.length + 1 = 1 then sub else .ext (toNibs t) sub) = (if t = [] then sub else .ext (toNibs t) sub) := by
    by_cases ht : t = []
    · subst ht; simp
    · have : t.length ≠ 0 := fun h => ht (List.length_eq_zero_iff.1 h)
      rw [if_neg (by omega), if_neg ht]
  rw [hsub]
  have eb : branchInsert (fun _ => .empty) none i.val (if t = [] then sub else .ext (toNibs t) sub)
      = .ok (fun j => if j = i then (if t = [] then sub else .ext (toNibs t) sub) else .empty, none) := by
    unfold branchInsert
    rw [if_neg (by omega), dif_pos hi]
  rw [eb]
  simp only [Res.ok_bind]
  have hbase : ∀ j, Rep K S (if j = i then (if t = [] then sub else .ext (toNibs t) sub) else .empty) (upd (fun _ => .empty) i (mk t s) j) := by
    intro j
    simp only [upd]
    split
    · exact rep_mk h
    · exact .empty
  cases p with
  | nil =>
    exact ⟨_, rfl, .branch (some v) hbase⟩
  | cons j u =>
    have hj := j.isLt
    have ej : at' (leafPath (j :: u)) 0 = .ok j.val := rfl
    rw [ej]
    simp only [Res.ok_bind]
    rw [if_neg (by omega), dif_pos hj]
    refine ⟨_, rfl, .branch none fun l => ?_⟩
    simp only [upd]
    split
    · exact .leaf u v
    · exact hbase l

theorem insertAt_empty (v : Bytes) (fuel : Nat) (p : Nibbles) : insertAt db v fuel .empty p = .of (.ok (.leaf p v)) := by
  cases fuel <;> rfl

theorem insertAt_leaf (v w : Bytes) (fuel : Nat) (k p : Nibbles) : insertAt db v fuel (.leaf k w) p = .of (insertLeaf k w p v) := by
  cases fuel <;> rfl

theorem insertAt_branch_nil (v : Bytes) (fuel : Nat) (cs : Fin 16 → Node) (w : Option Bytes) :
    insertAt db v fuel (.branch cs w) (leafPath []) = .of (.ok (.branch cs (some v))) := by
  cases fuel <;> rfl

theorem insertAt_branch_cons (v : Bytes) (fuel : Nat) (cs : Fin 16 → Node) (w : Option Bytes) (i : Nib) (p : List Nib) :
    insertAt db v fuel (.branch cs w) (leafPath (i :: p))
      = (insertAt db v fuel (cs i) (leafPath p)).map (fun n => .branch (fun j => if j = i then n else cs j) w) := by
  have hi := i.isLt
  have h1 : i.val ≠ 16 := by omega
  cases fuel
  · simp only [insertAt, leafPath, toNibs_cons, List.cons_append, insertStep, h1, if_false, hi, dite_true]
  · simp only [insertAt, leafPath, toNibs_cons, List.cons_append, insertStep, h1, if_false, hi, dite_true]

theorem insertAt_ext (v : Bytes) (fuel : Nat) (q p : Nibbles) (n : Node) :
    insertAt db v fuel (.ext q n) p =
      (if Nibbles.commonPrefix p q = 0 then .of (insertSplit q n p v)
      else if Nibbles.commonPrefix p q = q.length then
        (insertAt db v fuel n (p.drop (Nibbles.commonPrefix p q))).map (fun n => .ext q n)
      else .of ((insertSplit (q.drop (Nibbles.commonPrefix p q)) n (p.drop (Nibbles.commonPrefix p q)) v).map
        (fun n => .ext (q.take (Nibbles.commonPrefix p q)) n))) := by
  cases fuel <;> rfl

theorem insertAt_hash (v : Bytes) (fuel : Nat) (h : H256) (p : Nibbles) :
    insertAt db v (fuel + 1) (.hash h) p = Out.andThen ([h], fetch db h) (fun n => insertAt db v fuel n p) := rfl

theorem Inserted.map {x : Out Node} {t t' : PT} {f : Node → Node} (h : Inserted K S x t)
    (hf : ∀ n, Rep K S n t → Rep K S (f n) t') : Inserted K S (x.map f) t' := by
  obtain ⟨n, h1, h2⟩ := h
  refine ⟨f n, ?_, hf n h2⟩
  simp only [Out.map, h1]
  rfl

theorem insertAt_held {t : PT} {v : Bytes} (hR : Reads K S db) (hok : Ok t (2 ^ 60)) (h : Held K S t)
    (ih : ∀ (n : Node) (fuel : Nat) (p : List Nib), Rep K S n t → ¬ IsHash n → p.length ≤ fuel →
      Inserted K S (insertAt db v fuel n (leafPath p)) (t.insert v p))
    (fuel : Nat) (p : List Nib) (hf : p.length + 1 ≤ fuel) :
    Inserted K S (insertAt db v fuel (.hash (K (enc K t))) (leafPath p)) (t.insert v p) := by
  cases fuel with
  | zero => omega
  | succ f =>
    rw [insertAt_hash, fetch_held hR h hok]
    obtain ⟨n, h1, h2⟩ := ih _ f p (rep_top h.2) (top_not_hash t) (by omega)
    exact ⟨n, h1, h2⟩

theorem insertAt_node {t : PT} {v : Bytes} (hR : Reads K S db) (hok : Ok t (2 ^ 60)) (n : Node) (fuel : Nat) (p : List Nib)
    (h : Rep K S n t) (hn : ¬ IsHash n) (hf : p.length ≤ fuel) : Inserted K S (insertAt db v fuel n (leafPath p)) (t.insert v p) := by
  induction t generalizing n fuel p with
  | empty =>
    cases h with
    | empty => rw [insertAt_empty]; exact ⟨_, rfl, .leaf p v⟩
    | hash => exact absurd trivial hn
  | leaf k w =>
    cases h with
    | leaf =>
      rw [insertAt_leaf]
      exact insertLeaf_rep k p w v
    | hash => exact absurd trivial hn
  | ext q s ih =>
    cases h with
    | hash => exact absurd trivial hn
    | ext _ h =>
      rename_i m
      have hok' := ok_sub hok
      have hq0 : 0 < q.length := List.length_pos_iff.2 hok.1
      rw [insertAt_ext, commonPrefix_toNibs, toNibs_length]
      by_cases hq : lcp p q = q.length
      · rw [if_neg (by omega), if_pos hq]
        have hq' := hq
        obtain ⟨r, rfl⟩ := lcp_eq_length.1 hq
        rw [hq']
        simp only [PT.insert, hq', if_true, leafPath_drop, List.drop_left']
        rw [List.length_append] at hf
        refine Inserted.map (t := s.insert v r) ?_ (fun n hn => .ext q hn)
        by_cases hm : IsHash m
        · cases h with
          | hash hl h => exact insertAt_held hR hok' h (fun n f p h hn hf => ih hok' n f p h hn hf) fuel r (by omega)
          | _ => exact hm.elim
        · exact ih hok' m fuel r h hm (by omega)
      · obtain ⟨c, p', q', rfl, rfl, h3, h4⟩ := lcp_split p q
        have hq' : q' ≠ [] := by
          rintro rfl
          exact hq (by rw [h3]; simp)
        obtain ⟨i, t, rfl⟩ := List.exists_cons_of_ne_nil hq'
        obtain ⟨n, e, hrep⟩ := insertSplit_rep h h4 v
        simp only [PT.insert, hq, if_false]
        rw [h3]
        simp only [List.take_left', List.drop_left', leafPath_drop]
        by_cases hc : c = []
        · subst hc
          simp only [List.length_nil, if_true]
          exact ⟨n, e, hrep⟩
        · have hc' : c.length ≠ 0 := fun h => hc (List.length_eq_zero_iff.1 h)
          rw [if_neg hc']
          have e1 : (toNibs (c ++ i :: t)).drop c.length = toNibs (i :: t) := by
            rw [toNibs_append, List.drop_left' (toNibs_length c)]
          have e2 : (toNibs (c ++ i :: t)).take c.length = toNibs c := by
            rw [toNibs_append, List.take_left' (toNibs_length c)]
          rw [e1, e2, e]
          refine ⟨.ext (toNibs c) n, rfl, ?_⟩
          have := rep_mk (p := c) hrep
          rwa [if_neg hc] at this
  | branch cs w ih =>
    cases h with
    | hash => exact absurd trivial hn
    | branch _ h =>
      rename_i ns
      cases p with
      | nil => rw [insertAt_branch_nil]; exact ⟨_, rfl, .branch _ h⟩
      | cons i r =>
        rw [insertAt_branch_cons]
        have hok' := ok_child hok i
        have hi := h i
        simp only [List.length_cons] at hf
        refine Inserted.map (t := (cs i).insert v r) ?_ (fun n hn => .branch w fun j => ?_)
        · by_cases hm : IsHash (ns i)
          · generalize ns i = m at *
            generalize hc : cs i = c at *
            cases hi with
            | hash hl hh =>
              subst hc
              exact insertAt_held hR hok' hh (fun n f p h hn hf => ih i hok' n f p h hn hf) fuel r (by omega)
            | _ => exact hm.elim
          · exact ih i hok' (ns i) fuel r hi hm (by omega)
        · simp only [upd]
          split
          · exact hn
          · exact h j

theorem insertAt_root {t : PT} {v : Bytes} (hR : Reads K S db) (hok : Ok t (2 ^ 60)) {n : Node} {fuel : Nat} {p : List Nib}
    (h : RepRoot K S n t) (hf : p.length + 1 ≤ fuel) : Inserted K S (insertAt db v fuel n (leafPath p)) (t.insert v p) := by
  have key := fun n fuel p => insertAt_node (v := v) (n := n) (fuel := fuel) (p := p) hR hok
  have hash := fun (h : Held K S t) => insertAt_held hR hok h key fuel p hf
  cases h with
  | hash h => exact hash h
  | node h =>
    by_cases hm : IsHash n
    · cases h with
      | hash hl h => exact hash h
      | _ => exact hm.elim
    · exact key n fuel p h hm (by omega)

end Verif.Pmt
