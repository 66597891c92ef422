import Verif.Pmt.Serde
import Verif.Spec.PmtSerde
import Verif.Proofs.PmtRun
import Verif.Proofs.PmtCount
import Mathlib.Data.List.OfFn
/-!
Reading back what has been serialised.
-/

set_option autoImplicit false

namespace Verif.Serde

theorem hexVal_hexChar {n : Nat} (h : n < 16) : hexVal (hexChar n) = .ok n := by
  have : ∀ n : Fin 16, hexVal (hexChar n.val) = .ok n.val := by decide
  exact this ⟨n, h⟩

theorem hexDecode_hexEncode (b : List UInt8) : hexDecode (hexEncode b) = .ok b := by
  unfold hexDecode hexEncode
  rw [String.toList_ofList]
  induction b with
  | nil => rfl
  | cons x t ih =>
    have h1 : x.toNat / 16 < 16 := by have := x.toNat_lt; omega
    have h2 : x.toNat % 16 < 16 := Nat.mod_lt _ (by omega)
    simp only [List.flatMap_cons, List.cons_append, List.nil_append, hexPairs, hexVal_hexChar h1, hexVal_hexChar h2, ih, Res.ok_bind]
    rw [Nat.div_add_mod, UInt8.ofNat_toNat]
    rfl

theorem readAll_map {α : Type} {f : Value → Res α} {g : α → Value} {l : List α} (h : ∀ a ∈ l, f (g a) = .ok a) : readAll f (l.map g) = .ok l := by
  induction l with
  | nil => rfl
  | cons a t ih =>
    simp only [List.map_cons, readAll, h a List.mem_cons_self, Res.ok_bind, ih (fun x hx => h x (List.mem_cons_of_mem _ hx))]
    rfl

theorem readAll_error {α : Type} {f : Value → Res α} {e : Err} {l : List Value} (h : ∀ v ∈ l, (∃ a, f v = .ok a) ∨ f v = .error e)
    (he : ∃ v ∈ l, f v = .error e) : readAll f l = .error e := by
  induction l with
  | nil => obtain ⟨v, hv, -⟩ := he; cases hv
  | cons x t ih =>
    simp only [readAll]
    rcases h x List.mem_cons_self with ⟨a, ha⟩ | ha
    · rw [ha]
      simp only [Res.ok_bind]
      rw [ih (fun v hv => h v (List.mem_cons_of_mem _ hv))]
      · rfl
      · obtain ⟨v, hv, hve⟩ := he
        rcases List.mem_cons.1 hv with rfl | hv
        · rw [ha] at hve; cases hve
        · exact ⟨v, hv, hve⟩
    · rw [ha]
      rfl

theorem readBytes_writeBytes (b : List UInt8) : readBytes (writeBytes b) = .ok b := by
  refine readAll_map fun x _ => ?_
  have := x.toNat_lt
  simp only [writeByte, readByte]
  rw [if_pos (by simpa using this), UInt8.ofNat_toNat]

end Verif.Serde

namespace Verif.Pmt

open PT Verif.Serde

variable {K : Keccak} {S : Bytes → Prop} {db : Db}

theorem Nibbles.ofSerde_toSerde {n : Nibbles} (h : ∀ d ∈ n, d < 256) : Nibbles.ofSerde n.toSerde = .ok n := by
  simp only [Nibbles.ofSerde, Nibbles.toSerde, readHex, hexDecode_hexEncode, Res.ok_bind]
  refine congrArg Except.ok ?_
  rw [List.map_map]
  conv => rhs; rw [← List.map_id n]
  refine List.map_congr_left fun d hd => ?_
  simp only [Function.comp_apply, id]
  rw [UInt8.toNat_ofNat']
  exact Nat.mod_eq_of_lt (h d hd)

theorem H256.ofSerde_toSerde (h : H256) : H256.ofSerde h.toSerde = .ok h := by
  simp only [H256.ofSerde, H256.toSerde, readBytes_writeBytes, Res.ok_bind]
  rw [dif_pos h.size]
  rfl

theorem readValue_writeValue (v : Option Bytes) : readValue (writeValue v) = .ok v := by
  cases v with
  | none => rfl
  | some b =>
    have : readValue (writeValue (some b)) = (do pure (some (← readBytes (writeBytes b))) : Res (Option Bytes)) := rfl
    rw [this, readBytes_writeBytes]
    rfl

theorem readChildren_ok {f : Value → Res Node} {cs : Fin 16 → Node} (h : ∀ i, f (cs i).toSerde = .ok (cs i)) :
    readChildren f (.seq (List.ofFn fun i => (cs i).toSerde)) = .ok cs := by
  have e : readAll f (List.ofFn fun i => (cs i).toSerde) = .ok (List.ofFn cs) := by
    rw [show (List.ofFn fun i => (cs i).toSerde) = (List.ofFn cs).map Node.toSerde by rw [List.map_ofFn]; rfl]
    refine readAll_map fun a ha => ?_
    obtain ⟨i, rfl⟩ := (List.mem_ofFn).1 ha
    exact h i
  simp only [readChildren, e, Res.ok_bind]
  rw [dif_pos (List.length_ofFn)]
  refine congrArg Except.ok ?_
  funext i
  rw [List.getElem_ofFn]

theorem limit_error {limit : Nat} {n : Node} (hl : limit ≤ n.height) (hb : Spec.Bytewise n)
    (hok : ∀ limit (m : Node), Spec.Bytewise m → m.height < limit → Node.ofSerde limit m.toSerde = .ok m) :
    Node.ofSerde limit n.toSerde = .error (.err "recursion limit exceeded") := by
  induction n generalizing limit with
  | ext p m ih =>
    cases limit with
    | zero => rfl
    | succ l =>
      simp only [Node.height] at hl
      have := ih (limit := l) (by omega) hb.2
      simp only [Node.toSerde, Node.ofSerde]
      show (do
        let (p, x) ← twoFields "prefix" "node" false (.obj [("prefix", p.toSerde), ("node", m.toSerde)])
        pure (.ext (← Nibbles.ofSerde p) (← Node.ofSerde l x)) : Res Node) = _
      have e : twoFields "prefix" "node" false (.obj [("prefix", p.toSerde), ("node", m.toSerde)]) = .ok (p.toSerde, m.toSerde) := rfl
      rw [e]
      simp only [Res.ok_bind, Nibbles.ofSerde_toSerde hb.1, this]
      rfl
  | branch cs v ih =>
    cases limit with
    | zero => rfl
    | succ l =>
      simp only [Node.height] at hl
      have hex : ∃ i, l ≤ (cs i).height := by
        by_contra hn
        simp only [not_exists, not_le] at hn
        rcases Nat.eq_zero_or_pos l with rfl | hl0
        · exact absurd (hn 0) (by omega)
        · have : (Finset.univ.sup fun i => (cs i).height) < l := (Finset.sup_lt_iff (by simpa using hl0)).2 fun i _ => hn i
          omega
      have h1 : ∀ w ∈ List.ofFn (fun i => (cs i).toSerde), (∃ a, Node.ofSerde l w = .ok a) ∨ Node.ofSerde l w = .error (.err "recursion limit exceeded") := by
        intro w hw
        obtain ⟨i, rfl⟩ := (List.mem_ofFn).1 hw
        by_cases hi : (cs i).height < l
        · exact .inl ⟨_, hok l _ (hb i) hi⟩
        · exact .inr (ih i (by omega) (hb i))
      obtain ⟨i, hi⟩ := hex
      have h2 := readAll_error h1 ⟨_, (List.mem_ofFn).2 ⟨i, rfl⟩, ih i hi (hb i)⟩
      have e : twoFields "children" "value" true (.obj [("children", .seq (List.ofFn fun i => (cs i).toSerde)), ("value", writeValue v)])
        = .ok (.seq (List.ofFn fun i => (cs i).toSerde), writeValue v) := rfl
      simp only [Node.toSerde, Node.ofSerde]
      show (do
        let (cs, x) ← twoFields "children" "value" true (.obj [("children", .seq (List.ofFn fun i => (cs i).toSerde)), ("value", writeValue v)])
        pure (.branch (← readChildren (Node.ofSerde l) cs) (← readValue x)) : Res Node) = _
      rw [e]
      simp only [Res.ok_bind, readChildren, h2]
      rfl
  | _ => simp only [Node.height] at hl; obtain rfl := Nat.le_zero.1 hl; rfl

theorem Node.ofSerde_toSerde {n : Node} (hb : Spec.Bytewise n) {limit : Nat} (hl : n.height < limit) : Node.ofSerde limit n.toSerde = .ok n := by
  induction n generalizing limit with
  | empty => cases limit with
    | zero => omega
    | succ l => rfl
  | leaf k v => cases limit with
    | zero => omega
    | succ l =>
      show (do
        let (k, x) ← twoFields "key" "value" false (.obj [("key", k.toSerde), ("value", .str (hexEncode v))])
        pure (.leaf (← Nibbles.ofSerde k) (← readHex x)) : Res Node) = _
      have e : twoFields "key" "value" false (.obj [("key", k.toSerde), ("value", .str (hexEncode v))]) = .ok (k.toSerde, .str (hexEncode v)) := rfl
      rw [e]
      simp only [Res.ok_bind, Nibbles.ofSerde_toSerde hb, readHex, hexDecode_hexEncode]
      rfl
  | hash h => cases limit with
    | zero => omega
    | succ l =>
      show (do pure (.hash (← H256.ofSerde (← oneField "hash" (.obj [("hash", h.toSerde)])))) : Res Node) = _
      have e : oneField "hash" (.obj [("hash", h.toSerde)]) = .ok h.toSerde := rfl
      rw [e]
      simp only [Res.ok_bind, H256.ofSerde_toSerde]
      rfl
  | ext p m ih => cases limit with
    | zero => omega
    | succ l =>
      simp only [Node.height] at hl
      have := ih hb.2 (limit := l) (by omega)
      show (do
        let (p, x) ← twoFields "prefix" "node" false (.obj [("prefix", p.toSerde), ("node", m.toSerde)])
        pure (.ext (← Nibbles.ofSerde p) (← Node.ofSerde l x)) : Res Node) = _
      have e : twoFields "prefix" "node" false (.obj [("prefix", p.toSerde), ("node", m.toSerde)]) = .ok (p.toSerde, m.toSerde) := rfl
      rw [e]
      simp only [Res.ok_bind, Nibbles.ofSerde_toSerde hb.1, this]
      rfl
  | branch cs v ih => cases limit with
    | zero => omega
    | succ l =>
      simp only [Node.height] at hl
      have h1 : ∀ i, Node.ofSerde l (cs i).toSerde = .ok (cs i) := by
        intro i
        have := Finset.le_sup (f := fun i => (cs i).height) (Finset.mem_univ i)
        exact ih i (hb i) (by omega)
      have e : twoFields "children" "value" true (.obj [("children", .seq (List.ofFn fun i => (cs i).toSerde)), ("value", writeValue v)])
        = .ok (.seq (List.ofFn fun i => (cs i).toSerde), writeValue v) := rfl
      show (do
        let (cs, x) ← twoFields "children" "value" true (.obj [("children", .seq (List.ofFn fun i => (cs i).toSerde)), ("value", writeValue v)])
        pure (.branch (← readChildren (Node.ofSerde l) cs) (← readValue x)) : Res Node) = _
      rw [e]
      simp only [Res.ok_bind, readChildren_ok h1, readValue_writeValue]
      rfl

/-- A trie that has been serialised and read back. -/
def Trie.thawed (t : Trie) : Trie := ⟨t.root, t.rootHash, [], [], []⟩

theorem Trie.ofSerde_toSerde {t : Trie} (hb : Spec.Bytewise t.root) {limit : Nat} (hl : t.root.height < limit) :
    Trie.ofSerde limit t.toSerde = .ok t.thawed := by
  have e : twoFields "root" "root_hash" false t.toSerde = .ok (t.root.toSerde, t.rootHash.toSerde) := rfl
  simp only [Trie.ofSerde, e, Res.ok_bind, Node.ofSerde_toSerde hb hl, H256.ofSerde_toSerde]
  rfl

theorem Trie.ofSerde_limit {t : Trie} (hb : Spec.Bytewise t.root) {limit : Nat} (hl : limit ≤ t.root.height) :
    Trie.ofSerde limit t.toSerde = .error (.err "recursion limit exceeded") := by
  have e : twoFields "root" "root_hash" false t.toSerde = .ok (t.root.toSerde, t.rootHash.toSerde) := rfl
  simp only [Trie.ofSerde, e, Res.ok_bind, limit_error hl hb (fun l m h1 h2 => Node.ofSerde_toSerde h1 h2)]
  rfl

/-! ### The nodes of programs -/

theorem toNibs_lt_byte (p : List Nib) : ∀ d ∈ toNibs p, d < 256 := fun d hd => Nat.lt_trans (toNibs_lt p d hd) (by omega)

theorem leafPath_lt (p : List Nib) : ∀ d ∈ leafPath p, d < 256 := by
  intro d hd
  simp only [leafPath, List.mem_append, List.mem_singleton] at hd
  rcases hd with hd | rfl
  · exact toNibs_lt_byte p d hd
  · omega

theorem Rep.bytewise {n : Node} {t : PT} (h : Rep K S n t) : Spec.Bytewise n := by
  induction h with
  | empty => trivial
  | leaf k v => exact leafPath_lt k
  | hash => trivial
  | ext p h ih => exact ⟨toNibs_lt_byte p, ih⟩
  | branch v h ih => exact ih

theorem RepRoot.bytewise {n : Node} {t : PT} (h : RepRoot K S n t) : Spec.Bytewise n := by
  cases h with
  | hash => trivial
  | node h => exact h.bytewise

/-! ### Tries in memory -/

/-- A trie without hash nodes that stands for a map. -/
def InMemory (K : Keccak) (tr : Trie) (m : Spec.Map) : Prop := ∃ t, RepRoot K (fun _ => False) tr.root t ∧ Ok t (2 ^ 60) ∧ Agrees t m

theorem reads_false (db : Db) : Reads K (fun _ => False) db := fun _ h => h.elim

theorem InMemory.insert {tr : Trie} {m : Spec.Map} (h : InMemory K tr m) {k v : Bytes} (hk : k.length ≤ 2 ^ 59) (hv : v.length < 2 ^ 60)
    {tr' : Trie} {x : Option String} (hi : tr.insert db k v = .ok (tr', x)) : InMemory K tr' (if v = [] then m else m.set k (some v)) := by
  by_cases hne : v = []
  · subst hne
    have e : tr.insert db k [] = .ok (tr, some "value provided for key is empty") := rfl
    rw [e] at hi
    cases hi
    exact h
  · obtain ⟨t, h1, h2, h3⟩ := h
    obtain ⟨n, e, hr⟩ := insertAt_root (v := v) (reads_false db) h2 h1 (hops_ge (db := db) (nibsOf k))
    unfold Trie.insert at hi
    rw [if_neg (by simpa using hne), path_eq] at hi
    dsimp only at hi
    rw [e] at hi
    cases hi
    rw [if_neg hne]
    exact ⟨_, .node hr, ok_insert h2 (by rw [nibsOf_length]; omega) ⟨hne, hv⟩, h3.insert k v⟩

theorem InMemory.remove {tr : Trie} {m : Spec.Map} (h : InMemory K tr m) {k : Bytes} {tr' : Trie} {x : Except String Bool}
    (hi : tr.remove db k = .ok (tr', x)) : InMemory K tr' (m.set k none) := by
  obtain ⟨t, h1, h2, h3⟩ := h
  obtain ⟨n, b, r, e, hd, hr, hn⟩ := deleteAt_root (reads_false db) h2 h1 (hops_ge (db := db) (nibsOf k))
  unfold Trie.remove at hi
  rw [path_eq] at hi
  dsimp only at hi
  rw [e] at hi
  cases hi
  exact ⟨r, .node hr, ok_del hd h2, h3.del hd⟩

theorem Trie.getProof_root {tr tr' : Trie} {k : Bytes} {x : Except String (List Bytes)} (h : tr.getProof K db k = .ok (tr', x)) : tr'.root = tr.root := by
  unfold Trie.getProof at h
  split at h
  · cases h
  · cases h; rfl
  · obtain ⟨⟨bs, w⟩, h1⟩ := bind_ok h
    cases h1
    rfl

theorem InMemory.handle {tr : Trie} {m : Spec.Map} (h : InMemory K tr m) (hc : tr.cache = []) (db : Db) : HandleInv K False db tr m := by
  obtain ⟨t, h1, h2, h3⟩ := h
  exact ⟨by rw [hc]; simp, t, h1.mono (fun b hb => hb.elim), h2, h3, False.elim⟩

/-- The unsaved tries of a system are in memory. -/
def AllInMemory (K : Keccak) (s : Sys) (σ : Spec.State) (l : List Bool) : Prop :=
  s.tries.length = σ.maps.length ∧ s.tries.length = l.length ∧ s.roots.length = σ.snaps.length ∧
    ∀ (i : Nat) tr m, s.tries[i]? = some tr → σ.maps[i]? = some m → l[i]? = some true → InMemory K tr m

theorem getElem?_append_one {α : Type} {l : List α} {a b : α} {i : Nat} (h : (l ++ [a])[i]? = some b) : (i < l.length ∧ l[i]? = some b) ∨ (i = l.length ∧ b = a) := by
  rw [List.getElem?_append] at h
  split at h
  · exact .inl ⟨by assumption, h⟩
  · rw [List.getElem?_singleton] at h
    split at h
    · cases h; exact .inr ⟨by omega, rfl⟩
    · cases h

theorem AllInMemory.append {s : Sys} {σ : Spec.State} {l : List Bool} (h : AllInMemory K s σ l) {tr : Trie} {m : Spec.Map} {b : Bool}
    (ht : b = true → InMemory K tr m) : AllInMemory K { s with tries := s.tries ++ [tr] } { σ with maps := σ.maps ++ [m] } (l ++ [b]) := by
  obtain ⟨h1, h2, h3, h4⟩ := h
  refine ⟨by simp [h1], by simp [h2], h3, fun i x y hx hy hb => ?_⟩
  rcases getElem?_append_one hx with ⟨hi, hx⟩ | ⟨hi, rfl⟩
  · rcases getElem?_append_one hy with ⟨_, hy⟩ | ⟨hi', _⟩
    · rcases getElem?_append_one hb with ⟨_, hb⟩ | ⟨hi', _⟩
      · exact h4 i x y hx hy hb
      · omega
    · omega
  · rcases getElem?_append_one hy with ⟨_, hy⟩ | ⟨_, rfl⟩
    · omega
    · rcases getElem?_append_one hb with ⟨_, hb⟩ | ⟨_, rfl⟩
      · omega
      · exact ht rfl

theorem AllInMemory.set {s s' : Sys} {σ : Spec.State} {l : List Bool} (h : AllInMemory K s σ l) {j : Nat} {tr tr' : Trie} (hj : s.tries[j]? = some tr)
    (f : Spec.Map → Spec.Map) (ht : s'.tries = s.tries.set j tr') (hr : s'.roots = s.roots)
    (hm : ∀ m, InMemory K tr m → InMemory K tr' (f m)) : AllInMemory K s' (σ.update j f) l := by
  obtain ⟨h1, h2, h3, h4⟩ := h
  have hlt : j < s.tries.length := (List.getElem?_eq_some_iff.1 hj).1
  obtain ⟨m, hmj⟩ : ∃ m, σ.maps[j]? = some m := ⟨_, List.getElem?_eq_getElem (by omega)⟩
  rw [getElem?_update hmj]
  refine ⟨by simp [ht, h1], by simp [ht, h2], by simp [hr, h3], fun i x y hx hy hb => ?_⟩
  rw [ht, List.getElem?_set] at hx
  rw [List.getElem?_set] at hy
  by_cases hij : j = i
  · subst hij
    rw [if_pos rfl, if_pos hlt] at hx
    rw [if_pos rfl, if_pos (by omega)] at hy
    cases hx
    cases hy
    exact hm m (h4 j tr m hj hmj hb)
  · rw [if_neg hij] at hx hy
    exact h4 i x y hx hy hb

theorem Spec.State.update_id (σ : Spec.State) (j : Nat) : σ.update j id = σ := by
  unfold Spec.State.update
  split
  · rfl
  · next m hm =>
    obtain ⟨h, rfl⟩ := List.getElem?_eq_some_iff.1 hm
    simp

theorem AllInMemory.step {s s' : Sys} {σ : Spec.State} {l : List Bool} {op : Op} {r : Ret} (h : AllInMemory K s σ l) (hfit : Spec.Fits op)
    (hs : s.step K op = .ok (s', r)) (hr : ∀ i msg, ¬ (op = .commit i ∧ r = .failed msg)) :
    AllInMemory K s' (Spec.step σ op) (Spec.mark σ l op) := by
  have hnone : ∀ {i : Nat}, s.tries[i]? = none → σ.maps[i]? = none := by
    intro i hi
    rw [List.getElem?_eq_none_iff] at hi ⊢
    have := h.1
    omega
  cases op with
  | new =>
    cases hs
    exact h.append fun _ => ⟨.empty, .node .empty, trivial, Agrees.empty⟩
  | openAt j =>
    simp only [Sys.step] at hs
    simp only [Spec.step, Spec.mark]
    have h3 := h.2.2.1
    cases e : s.roots[j]? with
    | none =>
      rw [e] at hs
      cases hs
      have := List.getElem?_eq_none_iff.1 e
      rw [if_neg (by omega), List.getElem?_eq_none_iff.2 (by omega)]
      exact h
    | some x =>
      rw [e] at hs
      cases hs
      have := (List.getElem?_eq_some_iff.1 e).1
      rw [if_pos (by omega), List.getElem?_eq_getElem (by omega)]
      exact h.append fun hb => by cases hb
  | insert i k v =>
    simp only [Sys.step] at hs
    simp only [Spec.step]
    cases e : s.tries[i]? with
    | none =>
      rw [e] at hs
      cases hs
      rw [update_none (hnone e)]
      exact h
    | some tr =>
      rw [e] at hs
      simp only [Sys.insert] at hs
      rcases hi : tr.insert s.db k v with er | ⟨tr', x⟩
      · rw [hi] at hs; cases hs
      · have hs' : s' = s.put i tr' := by
          rw [hi] at hs
          cases x <;> cases hs <;> rfl
        subst hs'
        exact h.set e _ rfl rfl fun m hm => hm.insert hfit.1 hfit.2 hi
  | remove i k =>
    simp only [Sys.step] at hs
    simp only [Spec.step]
    cases e : s.tries[i]? with
    | none =>
      rw [e] at hs
      cases hs
      rw [update_none (hnone e)]
      exact h
    | some tr =>
      rw [e] at hs
      simp only [Sys.remove] at hs
      rcases hi : tr.remove s.db k with er | ⟨tr', x⟩
      · rw [hi] at hs; cases hs
      · have hs' : s' = s.put i tr' := by
          rw [hi] at hs
          cases x <;> cases hs <;> rfl
        subst hs'
        exact h.set e _ rfl rfl fun m hm => hm.remove hi
  | commit i =>
    simp only [Sys.step] at hs
    simp only [Spec.step, Spec.mark]
    obtain ⟨h1, h2, h3, h4⟩ := h
    cases e : s.tries[i]? with
    | none =>
      rw [e] at hs
      cases hs
      rw [hnone e]
      rw [List.set_eq_of_length_le (by have := List.getElem?_eq_none_iff.1 e; omega)]
      exact ⟨h1, h2, h3, h4⟩
    | some tr =>
      rw [e] at hs
      simp only [Sys.commit] at hs
      have hlt := (List.getElem?_eq_some_iff.1 e).1
      rw [List.getElem?_eq_getElem (by omega : i < σ.maps.length)]
      rcases hi : tr.commit K s.db with er | ⟨tr', db', x⟩
      · rw [hi] at hs; cases hs
      · rw [hi] at hs
        cases x with
        | error m => cases hs; exact absurd ⟨rfl, rfl⟩ (hr i m)
        | ok x =>
          cases hs
          refine ⟨by simp [h1], by simp [h2], by simp [h3], fun j a b ha hb hl => ?_⟩
          simp only [List.getElem?_set] at ha hl
          by_cases hij : i = j
          · rw [if_pos hij, if_pos (by omega)] at hl
            cases hl
          · rw [if_neg hij] at ha hl
            exact h4 j a b ha hb hl
  | proof i k =>
    simp only [Sys.step] at hs
    simp only [Spec.step]
    cases e : s.tries[i]? with
    | none =>
      rw [e] at hs
      cases hs
      exact h
    | some tr =>
      rw [e] at hs
      simp only [Sys.proof] at hs
      rcases hi : tr.getProof K s.db k with er | ⟨tr', x⟩
      · rw [hi] at hs; cases hs
      · have hs' : s' = s.put i tr' := by
          rw [hi] at hs
          cases x <;> cases hs <;> rfl
        subst hs'
        rw [← Spec.State.update_id σ i]
        refine h.set e id rfl rfl fun m hm => ?_
        obtain ⟨t, h1, h2, h3⟩ := hm
        exact ⟨t, by rw [Trie.getProof_root hi]; exact h1, h2, h3⟩

theorem AllInMemory.run {s s' : Sys} {σ : Spec.State} {l : List Bool} {ops : List Op} {rs : List Ret} (h : AllInMemory K s σ l)
    (hfit : ∀ op ∈ ops, Spec.Fits op) (hrun : s.run K ops = .ok (s', rs)) (hc : Spec.CommitsSucceed ops rs) :
    AllInMemory K s' (ops.foldl Spec.step σ) (Spec.unsavedFrom σ l ops) := by
  induction ops generalizing s σ l rs with
  | nil => cases hrun; exact h
  | cons op t ih =>
    obtain ⟨s1, r, rs', h1, h2, rfl⟩ := Sys.run_cons hrun
    refine ih (h.step (hfit _ List.mem_cons_self) h1 ?_) (fun o ho => hfit _ (List.mem_cons_of_mem _ ho)) h2
      (fun i m hm => hc i m (List.mem_cons_of_mem _ hm))
    rintro i m ⟨rfl, rfl⟩
    exact hc i m List.mem_cons_self

/-! ### Committing the copy -/

/-- The hash of the root depends on the root node only. -/
theorem Trie.writeRoot_of_root {tr tr' tr2 : Trie} {h : H256} (e : tr2.root = tr.root) (hw : tr.writeRoot K = .ok (tr', h)) :
    ∃ tr2', tr2.writeRoot K = .ok (tr2', h) := by
  unfold Trie.writeRoot at hw ⊢
  rw [e]
  rcases h1 : writeNode K tr.root with er | ⟨x, w⟩
  · rw [h1] at hw; cases hw
  · rw [h1] at hw
    simp only [Res.ok_bind] at hw ⊢
    cases x <;> cases hw <;> exact ⟨_, rfl⟩

theorem Trie.commit_root {tr tr' : Trie} {db' : Db} {h : H256} (hc : tr.commit K db = .ok (tr', db', .ok h)) : ∃ tr1, tr.writeRoot K = .ok (tr1, h) := by
  unfold Trie.commit at hc
  rcases hw : tr.writeRoot K with e | ⟨tr1, hh⟩
  · rw [hw] at hc; cases hc
  · rw [hw] at hc
    simp only [Res.ok_bind] at hc
    split at hc
    · cases hc
    · cases hc
    · cases hc
    · cases hc; exact ⟨_, rfl⟩

/-! ### Deep tries -/

/-- A chain of keys, each the beginning of the next, needs as many nodes below each other. -/
theorem Rep.height_chain {n : Node} {t : PT} (h : Rep K (fun _ => False) n t) {l : List (List Nib)}
    (hl : l.Pairwise fun a b => ∃ x, x ≠ [] ∧ b = a ++ x) (hg : ∀ p ∈ l, (t.get p).isSome = true) : l.length ≤ n.height + 1 := by
  induction h generalizing l with
  | empty =>
    cases l with
    | nil => simp
    | cons a l => have := hg a List.mem_cons_self; simp [PT.get] at this
  | leaf k v =>
    match l, hl, hg with
    | [], _, _ => simp
    | [_], _, _ => simp
    | a :: b :: l, hl, hg =>
      exfalso
      have ha := hg a List.mem_cons_self
      have hb := hg b (by simp)
      simp only [PT.get, Option.isSome_ite] at ha hb
      obtain ⟨x, hx, e⟩ := (List.pairwise_cons.1 hl).1 b List.mem_cons_self
      rw [← hb, ← ha] at e
      exact hx (List.self_eq_append_right.1 e)
  | hash hl h => exact h.1.elim
  | @ext q n s h ih =>
    have hpre : ∀ p ∈ l, ∃ r, p = q ++ r := by
      intro p hp
      by_contra hn
      have := hg p hp
      rw [get_ext_off s (fun ⟨r, hr⟩ => hn ⟨r, hr.symm⟩)] at this
      cases this
    have := ih (l := l.map (List.drop q.length))
      (by
        rw [List.pairwise_map]
        refine hl.imp_of_mem fun {a b} ha hb hab => ?_
        obtain ⟨r, rfl⟩ := hpre a ha
        obtain ⟨x, hx, rfl⟩ := hab
        exact ⟨x, hx, by simp⟩)
      (by
        intro p hp
        obtain ⟨p, hq, rfl⟩ := List.mem_map.1 hp
        have hs := hg p hq
        obtain ⟨r, rfl⟩ := hpre p hq
        rw [get_ext_append] at hs
        simpa using hs)
    rw [List.length_map] at this
    simp only [Node.height]
    omega
  | @branch cs ts v h ih =>
    simp only [Node.height]
    have key : ∀ l : List (List Nib), l.Pairwise (fun a b => ∃ x, x ≠ [] ∧ b = a ++ x) → (∀ p ∈ l, ((PT.branch ts v).get p).isSome = true) →
        (∀ p ∈ l, p ≠ []) → l.length ≤ (Finset.univ.sup fun i => (cs i).height) + 1 := by
      intro l hl hg hne
      cases l with
      | nil => simp
      | cons a l =>
        cases a with
        | nil => exact absurd rfl (hne [] List.mem_cons_self)
        | cons c r =>
          have hstart : ∀ p ∈ (c :: r) :: l, ∃ q, p = c :: q := by
            intro p hp
            rcases List.mem_cons.1 hp with rfl | hp
            · exact ⟨r, rfl⟩
            · obtain ⟨x, -, rfl⟩ := (List.pairwise_cons.1 hl).1 p hp
              exact ⟨r ++ x, rfl⟩
          have := ih c (l := ((c :: r) :: l).map List.tail)
            (by
              rw [List.pairwise_map]
              refine hl.imp_of_mem fun {a b} ha hb hab => ?_
              obtain ⟨q, rfl⟩ := hstart a ha
              obtain ⟨x, hx, rfl⟩ := hab
              exact ⟨x, hx, by simp⟩)
            (by
              intro p hp
              obtain ⟨p, hq, rfl⟩ := List.mem_map.1 hp
              have hs := hg p hq
              obtain ⟨q, rfl⟩ := hstart p hq
              exact hs)
          rw [List.length_map] at this
          have hsup := Finset.le_sup (f := fun i => (cs i).height) (Finset.mem_univ c)
          exact Nat.le_trans this (Nat.succ_le_succ hsup)
    by_cases hnil : ∀ p ∈ l, p ≠ []
    · have := key l hl hg hnil
      omega
    · cases l with
      | nil => simp
      | cons a l =>
        have hne : ∀ p ∈ l, p ≠ [] := by
          intro p hp
          obtain ⟨x, hx, rfl⟩ := (List.pairwise_cons.1 hl).1 p hp
          simp [hx]
        have := key l (List.pairwise_cons.1 hl).2 (fun p hp => hg p (List.mem_cons_of_mem _ hp)) hne
        simp only [List.length_cons]
        omega

theorem InMemory.height {tr : Trie} {m : Spec.Map} (h : InMemory K tr m) (n : Nat) (hm : ∀ i ≤ n, (m (List.replicate i 0)).isSome = true) : n ≤ tr.root.height := by
  obtain ⟨t, h1, h2, h3⟩ := h
  have hr : Rep K (fun _ => False) tr.root t := by
    generalize tr.root = x at h1
    cases h1 with
    | node h => exact h
    | hash h => exact h.1.elim
  have := hr.height_chain (l := (List.range (n + 1)).map fun i => nibsOf (List.replicate i 0))
    (by
      rw [List.pairwise_map]
      refine List.pairwise_lt_range.imp fun {a b} hab => ⟨nibsOf (List.replicate (b - a) 0), ?_, ?_⟩
      · intro e
        have := congrArg List.length e
        rw [nibsOf_length, List.length_replicate] at this
        simp at this
        omega
      · rw [← nibsOf_append, List.replicate_append_replicate, Nat.add_sub_cancel' (by omega)])
    (by
      intro p hp
      obtain ⟨i, hi, rfl⟩ := List.mem_map.1 hp
      rw [h3.get]
      exact hm i (by have := List.mem_range.1 hi; omega))
  simp at this
  exact this

end Verif.Pmt
