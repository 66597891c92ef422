import Verif.Proofs.PmtSerde
import Verif.Proofs.PmtDoc
import Verif.Props.PmtExamples
/-! Tries that are serialised and read back: C83. -/

set_option autoImplicit false

namespace Verif.Props
open Verif Verif.Pmt PmtEx

variable {K : Keccak}

/-- **C83**, the root. What has been serialised is read back with the same root node and root hash and nothing pending, if the format allows as many
nodes inside each other as the root has, and otherwise not at all. -/
theorem C83_roundtrip {t : Trie} (hb : Spec.Bytewise t.root) (limit : Nat) :
    Trie.ofSerde limit t.toSerde =
      if t.root.height < limit then .ok ⟨t.root, t.rootHash, [], [], []⟩ else .error (.err "recursion limit exceeded") := by
  split
  · next h => exact Trie.ofSerde_toSerde hb h
  · next h => exact Trie.ofSerde_limit hb (by omega)

example : Spec.Bytewise (.ext [1] (.leaf [2, 16] [7])) ∧ (Node.ext [1] (.leaf [2, 16] [7])).height = 1 := by
  refine ⟨⟨?_, ?_⟩, rfl⟩ <;> intro d hd <;> simp at hd <;> omega

/-- Different roots are serialised (and, by `Display`, printed) differently. -/
theorem C83_distinct {t u : Trie} (ht : Spec.Bytewise t.root) (hu : Spec.Bytewise u.root) (h : t.toSerde = u.toSerde) :
    t.root = u.root ∧ t.rootHash = u.rootHash := by
  have h1 := Trie.ofSerde_toSerde ht (limit := max t.root.height u.root.height + 1) (by omega)
  have h2 := Trie.ofSerde_toSerde hu (limit := max t.root.height u.root.height + 1) (by omega)
  rw [h, h2] at h1
  have h3 := Except.ok.inj h1
  exact ⟨(congrArg Trie.root h3).symm, (congrArg Trie.rootHash h3).symm⟩

/-- The tries of every program on an archive database are such that `C83_roundtrip` applies, or two byte strings stored have the same hash. -/
theorem C83_programs {ops : List Op} (hfit : ∀ op ∈ ops, Spec.Fits op) {s : Sys} {rs : List Ret} (hrun : (Sys.new false).run K ops = .ok (s, rs)) :
    Spec.Collision K s.db.log ∨ ∀ t ∈ s.tries, Spec.Bytewise t.root := by
  rcases collision_or K s.db.log with hc | hc
  · exact .inl hc
  refine .inr fun t ht => ?_
  have g := SysInv.new (K := K) (P := False) |>.run hfit (fun p => p.elim) hrun hc
  obtain ⟨i, hi⟩ := List.mem_iff_getElem?.1 ht
  obtain ⟨m, -, -, _, h, -⟩ := g.tries.some hi
  exact h.bytewise

/-- **C83**, tries that exist in memory only. A trie that has been made by `new` and not been committed since is serialised and read back, by a format
that allows enough nodes inside each other: all keys are read from the copy, which has a database of its own, as from the map; `commit` of the copy
gives the root hash that `commit` of the original gives; and all keys can then be read from the database of the copy at this root hash, or two byte
strings stored there have the same hash. This holds on both kinds of databases. Missing from the full statement: tries that have been committed, for
which it is false (`C83_committed_false`). -/
theorem C83_unsaved_partial {light : Bool} {ops : List Op} (hfit : ∀ op ∈ ops, Spec.Fits op) {s : Sys} {rs : List Ret}
    (hrun : (Sys.new light).run K ops = .ok (s, rs)) (hc : Spec.CommitsSucceed ops rs) {i : Nat} {t : Trie} {m : Spec.Map}
    (ht : s.tries[i]? = some t) (hm : (Spec.run ops).maps[i]? = some m) (hu : (Spec.unsaved ops)[i]? = some true) {limit : Nat}
    (hl : t.root.height < limit) :
    ∃ t2, Trie.ofSerde limit t.toSerde = .ok t2 ∧ (∀ k, t2.get Db.default k = .ok (m k)) ∧
      ∃ t3 db h, t2.commit K Db.default = .ok (t3, db, .ok h) ∧ (∀ t' db' h', t.commit K s.db = .ok (t', db', .ok h') → h' = h) ∧
        (Spec.Collision K db.log ∨ ∀ k, (Trie.atRoot h).get db k = .ok (m k)) := by
  have hinv : AllInMemory K (Sys.new light) ⟨[], []⟩ [] := ⟨rfl, rfl, rfl, fun i tr m h => by simp [Sys.new] at h⟩
  have him := (hinv.run hfit hrun hc).2.2.2 i t m ht hm hu
  have hb : Spec.Bytewise t.root := by
    obtain ⟨_, h, -⟩ := him
    exact h.bytewise
  have hh : HandleInv K False Db.default t.thawed m := by
    obtain ⟨u, h1, h2, h3⟩ := him
    exact InMemory.handle (tr := t.thawed) ⟨u, h1, h2, h3⟩ rfl _
  have hd : DbInv K Db.default := DbInv.new
  have hR : Reads K (InLog Db.default) Db.default := fun b hb => by cases hb
  refine ⟨t.thawed, Trie.ofSerde_toSerde hb hl, fun k => Trie.get_ok hR hh k, ?_⟩
  obtain ⟨t3, db, u, e, g1, g2, g3, g4, g5, g6, g7, g8⟩ := Trie.commit_ok hd hh
  refine ⟨t3, db, _, e, ?_, ?_⟩
  · intro t' db' h' e'
    obtain ⟨t1, e1⟩ := Trie.commit_root e'
    obtain ⟨t2, e2⟩ := Trie.writeRoot_of_root (tr := t) (tr2 := t.thawed) rfl e1
    obtain ⟨t4, e4⟩ := Trie.commit_root e
    rw [e2] at e4
    exact congrArg Prod.snd (Except.ok.inj e4)
  · rcases collision_or K db.log with hc | hc
    · exact .inl hc
    · refine .inr fun k => ?_
      have : HandleInv K False db (Trie.atRoot (K (PT.enc K u))) m := ⟨by simp [Trie.atRoot], u, .hash g4, g5, g6, False.elim⟩
      exact Trie.get_ok (g1.reads hc) this k

/-- A trie that is changed and not committed, beside one that is committed and opened. -/
def memOps : List Op :=
  [.new, .insert 0 [0x12, 0x34] (long 1), .new, .commit 0, .openAt 0, .insert 1 [0x12] (long 2), .insert 1 [0x12, 0x34] [3], .insert 1 [0x92] [4],
   .remove 1 [0x92]]

example : (∀ op ∈ memOps, Spec.Fits op) ∧ ((Sys.new true).run exK memOps).toOption.isSome = true ∧
    (Spec.unsaved memOps) = [false, true, false] ∧ (result true memOps).1.tries.length = 3 ∧ (handle true memOps 1).root.height < 128 ∧
    ((mapOf memOps 1 [0x12]) = some (long 2)) := by
  refine ⟨?_, by decide +kernel, by decide +kernel, by decide +kernel, by decide +kernel, by decide +kernel⟩
  intro op hop
  simp only [memOps, List.mem_cons, List.not_mem_nil, or_false] at hop
  rcases hop with rfl | rfl | rfl | rfl | rfl | rfl | rfl | rfl | rfl <;> simp [Spec.Fits, long]

example : Spec.CommitsSucceed memOps (result true memOps).2 := by
  intro i msg h
  have hall : ∀ p ∈ memOps.zip (result true memOps).2, (match p with | (_, .failed _) => false | _ => true) = true := by decide +kernel
  exact absurd (hall _ h) (by simp)

/-- **C83**, no wrong answers. Of any trie, committed or not and with whatever database, the copy that has been serialised and read back gives no other
values than the original: a value or an absence that is read from the copy is what the original reads. -/
theorem C83_never_wrong {db : Db} {t t2 : Trie} (hb : Spec.Bytewise t.root) {limit : Nat} (h2 : Trie.ofSerde limit t.toSerde = .ok t2) {k : Bytes}
    {v : Option Bytes} (hv : t2.get Db.default k = .ok v) : t.get db k = .ok v := by
  rw [C83_roundtrip hb] at h2
  split at h2
  · cases h2
    exact Trie.get_within (d := Db.default) (d' := db) List.nodup_nil (fun h b hg => by cases hg) (tr := ⟨t.root, t.rootHash, [], [], []⟩) hv
  · cases h2

example : ((handle false exOps 0).get Db.default [0x12]).toOption = some (some [9]) ∧
    ((handle false (exOps.take 6) 0).get Db.default [0x33]).toOption = some none := ⟨by decide +kernel, by decide +kernel⟩

theorem toNat_toLower (c : Char) : c.toLower.toNat = if 65 ≤ c.toNat ∧ c.toNat ≤ 90 then c.toNat + 32 else c.toNat := by
  unfold Char.toLower
  have e : (c.val ≥ 'A'.val ∧ c.val ≤ 'Z'.val) ↔ (65 ≤ c.toNat ∧ c.toNat ≤ 90) := Iff.rfl
  by_cases h : 65 ≤ c.toNat ∧ c.toNat ≤ 90
  · rw [dif_pos (e.2 h), if_pos h]
    show (c.val + 32).toNat = c.val.toNat + 32
    have : c.val.toNat ≤ 90 := h.2
    rw [UInt32.toNat_add]
    show (c.val.toNat + 32) % 4294967296 = _
    omega
  · rw [dif_neg (fun h' => h (e.1 h')), if_neg h]

theorem hexVal_iff (c : Char) (n : Nat) : Serde.hexVal c = .ok n ↔ n < 16 ∧ c.toLower = Serde.hexChar n := by
  have hc : ∀ m : Fin 16, (Serde.hexChar m.val).toNat = if m.val < 10 then 48 + m.val else 87 + m.val := by decide
  have hl := toNat_toLower c
  have hi : n < 16 → (c.toLower = Serde.hexChar n ↔ c.toLower.toNat = if n < 10 then 48 + n else 87 + n) := by
    intro hn
    rw [← hc ⟨n, hn⟩]
    exact ⟨fun h => h ▸ rfl, fun h => Char.toNat_inj.1 h⟩
  have hi' : (n < 16 ∧ c.toLower = Serde.hexChar n) ↔ (n < 16 ∧ c.toLower.toNat = if n < 10 then 48 + n else 87 + n) :=
    ⟨fun h => ⟨h.1, (hi h.1).1 h.2⟩, fun h => ⟨h.1, (hi h.1).2 h.2⟩⟩
  rw [hi', hl]
  unfold Serde.hexVal
  split
  · simp only [Except.ok.injEq]; split <;> split <;> omega
  · split
    · simp only [Except.ok.injEq]; split <;> split <;> omega
    · split
      · simp only [Except.ok.injEq]; split <;> split <;> omega
      · simp only [reduceCtorEq, false_iff]; split <;> split <;> omega

theorem res_bind_ok {α β : Type} {x : Res α} {f : α → Res β} {b : β} (h : (x >>= f) = .ok b) : ∃ a, x = .ok a ∧ f a = .ok b := by
  cases x with
  | ok a => exact ⟨a, rfl, h⟩
  | error e => cases h

theorem readHex_str (s : String) (b : Bytes) : Serde.readHex (.str s) = .ok b ↔ s.toList.map Char.toLower = (Serde.hexEncode b).toList := by
  show Serde.hexPairs s.toList = .ok b ↔ _
  unfold Serde.hexEncode
  rw [String.toList_ofList]
  generalize s.toList = l
  induction l using Serde.hexPairs.induct generalizing b with
  | case1 => cases b <;> simp [Serde.hexPairs]
  | case2 a => cases b <;> simp [Serde.hexPairs]
  | case3 a c t ih =>
    cases b with
    | nil =>
      simp only [List.map_cons, List.flatMap_nil, reduceCtorEq, iff_false]
      intro h
      obtain ⟨x, -, h⟩ := res_bind_ok h
      obtain ⟨y, -, h⟩ := res_bind_ok h
      obtain ⟨r, -, h⟩ := res_bind_ok h
      cases h
    | cons d b =>
      simp only [List.map_cons, List.flatMap_cons, List.cons_append, List.nil_append, List.cons.injEq]
      rw [← ih b]
      have hd1 : d.toNat / 16 < 16 := by have := d.toNat_lt; omega
      have hd2 : d.toNat % 16 < 16 := Nat.mod_lt _ (by omega)
      constructor
      · intro h
        obtain ⟨x, hx, h⟩ := res_bind_ok h
        obtain ⟨y, hy, h⟩ := res_bind_ok h
        obtain ⟨r, hr, h⟩ := res_bind_ok h
        obtain ⟨hd, rfl⟩ : UInt8.ofNat (16 * x + y) = d ∧ r = b := by cases h; exact ⟨rfl, rfl⟩
        obtain ⟨hx, ex⟩ := (hexVal_iff _ _).1 hx
        obtain ⟨hy, ey⟩ := (hexVal_iff _ _).1 hy
        have e : d.toNat = 16 * x + y := by rw [← hd, UInt8.toNat_ofNat']; omega
        refine ⟨?_, ?_, hr⟩
        · rw [ex, e]; congr 1; omega
        · rw [ey, e]; congr 1; omega
      · rintro ⟨h1, h2, h3⟩
        simp only [Serde.hexPairs, (hexVal_iff _ _).2 ⟨hd1, h1⟩, (hexVal_iff _ _).2 ⟨hd2, h2⟩, h3, Res.ok_bind]
        rw [Nat.div_add_mod, UInt8.ofNat_toNat]
        rfl

/-- **C83**, texts. Byte strings are written in lower case. A document is read as a byte string if and only if it is a text and, but for upper case, what is
written for this byte string; in particular an odd number of digits is refused. -/
theorem C83_text (c : Serde.Value) (b : Bytes) :
    Serde.readHex c = .ok b ↔ ∃ s, c = .str s ∧ s.toList.map Char.toLower = (Serde.hexEncode b).toList := by
  constructor
  · intro h
    cases c with
    | str s => exact ⟨s, rfl, (readHex_str s b).1 h⟩
    | _ => cases h
  · rintro ⟨s, rfl, h⟩
    exact (readHex_str s b).2 h

/-- **C83**, all documents. A document is read as a trie if and only if it is one of those that `Spec.TrieDoc` describes and the nodes are not nested
too deep, and what is read is the trie it describes. Nothing is checked besides: the paths are any byte strings, and the root hash is any. -/
theorem C83_documents (limit : Nat) (c : Serde.Value) (t : Trie) :
    Trie.ofSerde limit c = .ok t ↔
      Spec.TrieDoc c t.root t.rootHash ∧ t.root.height < limit ∧ t = ⟨t.root, t.rootHash, [], [], []⟩ :=
  Trie.ofSerde_iff C83_text

/-- **C83**, what is written is one of these documents, and stands for nothing else. -/
theorem C83_written {t : Trie} (hb : Spec.Bytewise t.root) (root : Node) (h : H256) :
    Spec.TrieDoc t.toSerde root h ↔ root = t.root ∧ h = t.rootHash := by
  have h1 := (Trie.ofSerde_iff C83_text).1 (C83_roundtrip hb (limit := t.root.height + 1) ▸ if_pos (Nat.lt_succ_self _))
  constructor
  · intro h2
    have e1 := (Trie.ofSerde_iff C83_text (limit := root.height + t.root.height + 1) (t := ⟨root, h, [], [], []⟩)).2 ⟨h2, by dsimp only; omega, rfl⟩
    rw [C83_roundtrip hb, if_pos (by omega)] at e1
    cases e1
    exact ⟨rfl, rfl⟩
  · rintro ⟨rfl, rfl⟩
    exact h1.1

/-- **C83**, arrays. Instead of an object with the fields there may be an array of them in the order of their declaration, at every level. -/
theorem C83_arrays (limit : Nat) (a b : Serde.Value) :
    Trie.ofSerde limit (.seq [a, b]) = Trie.ofSerde limit (.obj [("root", a), ("root_hash", b)]) ∧
    Node.ofSerde limit (.obj [("Leaf", .seq [a, b])]) = Node.ofSerde limit (.obj [("Leaf", .obj [("key", a), ("value", b)])]) ∧
    Node.ofSerde limit (.obj [("Extension", .seq [a, b])]) = Node.ofSerde limit (.obj [("Extension", .obj [("prefix", a), ("node", b)])]) ∧
    Node.ofSerde limit (.obj [("Branch", .seq [a, b])]) = Node.ofSerde limit (.obj [("Branch", .obj [("children", a), ("value", b)])]) ∧
    Node.ofSerde limit (.obj [("Hash", .seq [a])]) = Node.ofSerde limit (.obj [("Hash", .obj [("hash", a)])]) := by
  cases limit <;> exact ⟨rfl, rfl, rfl, rfl, rfl⟩

example : Serde.readHex (.str "0aFf") = .ok [10, 255] := (C83_text _ _).2 ⟨_, rfl, by decide⟩
example : ∀ b, Serde.readHex (.str "0aF") ≠ .ok b := fun b h => by
  obtain ⟨s, hs, h⟩ := (C83_text _ _).1 h
  cases hs
  have := congrArg List.length h
  have e : ∀ b : Bytes, (Serde.hexEncode b).toList.length = 2 * b.length := fun b => by
    unfold Serde.hexEncode; rw [String.toList_ofList]; simp [List.length_flatMap]; omega
  rw [e, List.length_map] at this
  have h3 : "0aF".toList.length = 3 := by decide
  omega

/-- A leaf with a field that is not known, an array for the structure of the trie, and a text in upper case. -/
def oddDoc : Serde.Value :=
  .seq [.obj [("Leaf", .obj [("value", .str "fF"), ("colour", .num 7), ("key", .str "010A10")])], (Trie.new exK).rootHash.toSerde]

example : Spec.TrieDoc oddDoc (.leaf [1, 10, 16] [255]) (Trie.new exK).rootHash :=
  ((C83_documents 1 oddDoc ⟨.leaf [1, 10, 16] [255], (Trie.new exK).rootHash, [], [], []⟩).1 rfl).1

-- the same field twice is refused
example (v : Serde.Value) (t : Trie) : Trie.ofSerde 5 (.obj [("root", v), ("root", v), ("root_hash", (Trie.new exK).rootHash.toSerde)]) ≠ .ok t := by
  intro h
  cases h

/-- An extension without prefix, as a document. -/
def badDoc : Serde.Value :=
  .obj [("root", .obj [("Extension", .obj [("prefix", .str ""), ("node", .obj [("Leaf", .obj [("key", .str "0110"), ("value", .str "07")])])])]),
    ("root_hash", (Trie.new exK).rootHash.toSerde)]

/-- **C83**, unchecked reading. A document with an extension without prefix, which no trie has, is accepted, and `commit` of the trie read from it panics. -/
theorem C83_unchecked : ∃ t, Trie.ofSerde 128 badDoc = .ok t ∧ ∀ K, ∃ msg, t.commit K Db.default = .error (.panic msg) := by
  refine ⟨⟨.ext [] (.leaf [1, 16] [7]), (Trie.new exK).rootHash, [], [], []⟩, ?_, fun K => ?_⟩
  · rfl
  · exact ⟨_, rfl⟩

/-- A trie with two keys whose nodes are stored by hash, committed. -/
def savedOps : List Op := [.new, .insert 0 [0x12] (long 1), .insert 0 [0x92] (long 2), .commit 0]

theorem savedOps_fits : ∀ op ∈ savedOps, Spec.Fits op := by
  intro op hop
  simp only [savedOps, List.mem_cons, List.not_mem_nil, or_false] at hop
  rcases hop with rfl | rfl | rfl | rfl <;> simp [Spec.Fits, long]

theorem lost_of {ops : List Op} {i : Nat} {k v : Bytes} (hfit : ∀ op ∈ ops, Spec.Fits op)
    (hrun : ((Sys.new false).run exK ops).toOption.isSome = true) (hc : ¬ Spec.Collision exK (result false ops).1.db.log)
    (hi : ((result false ops).1.tries[i]?).isSome = true) (hv : ((handle false ops i).get (result false ops).1.db k).toOption = some (some v))
    (hh : (handle false ops i).root.height < 128) (hg : ((handle false ops i).get Db.default k).toOption = none) :
    ∃ t, (result false ops).1.tries[i]? = some t ∧ (t.get (result false ops).1.db k).toOption = some (some v) ∧
      ∃ t2, Trie.ofSerde 128 t.toSerde = .ok t2 ∧ (t2.get Db.default k).toOption = none := by
  have hb := (C83_programs hfit (result_eq hrun)).resolve_left hc _ (List.mem_of_getElem? (handle_eq hi))
  exact ⟨_, handle_eq hi, hv, _, Trie.ofSerde_toSerde hb hh, hg⟩

/-- **C83** is false of tries that have been committed: nodes of 32 bytes and more are left in the database, which is not part of what is serialised. -/
theorem C83_committed_false : ∃ t, (result false savedOps).1.tries[0]? = some t ∧
    (t.get (result false savedOps).1.db [0x12]).toOption = some (some (long 1)) ∧
    ∃ t2, Trie.ofSerde 128 t.toSerde = .ok t2 ∧ (t2.get Db.default [0x12]).toOption = none :=
  lost_of savedOps_fits (by decide +kernel) (by decide +kernel) (by decide +kernel) (by decide +kernel) (by decide +kernel) (by decide +kernel)

/-- The keys without bytes, with one zero byte, with two, and so on. -/
def deepOps (n : Nat) : List Op := .new :: (List.range (n + 1)).map (fun i => .insert 0 (List.replicate i 0) [1])

theorem inserts_run (l : List Bytes) (hl : ∀ k ∈ l, k.length ≤ 2 ^ 59) {s : Sys} {t : Trie} {m : Spec.Map} (hs : s.tries = [t])
    (h : InMemory K t m) : ∃ s' rs t' m', s.run K (l.map fun k => .insert 0 k [1]) = .ok (s', rs) ∧ s'.tries = [t'] ∧ InMemory K t' m' ∧
      ∀ k, (k ∈ l ∨ (m k).isSome = true) → (m' k).isSome = true := by
  induction l generalizing s t m with
  | nil => exact ⟨s, [], t, m, rfl, hs, h, fun k hk => hk.resolve_left (by simp)⟩
  | cons k l ih =>
    have hi : ∃ t1, t.insert s.db k [1] = .ok (t1, none) := by
      obtain ⟨u, h1, h2, h3⟩ := h
      obtain ⟨n, e, -⟩ := insertAt_root (v := [1]) (reads_false s.db) h2 h1 (hops_ge (db := s.db) (nibsOf k))
      unfold Trie.insert
      rw [if_neg (by simp), path_eq]
      dsimp only
      rw [e]
      exact ⟨_, rfl⟩
    obtain ⟨t1, e1⟩ := hi
    have h1 := h.insert (v := [1]) (hl k List.mem_cons_self) (by simp) e1
    obtain ⟨s', rs, t', m', g1, g2, g3, g4⟩ := ih (fun x hx => hl x (List.mem_cons_of_mem _ hx)) (s := s.put 0 t1) (by simp [Sys.put, hs]) h1
    refine ⟨s', .done :: rs, t', m', ?_, g2, g3, fun x hx => g4 x ?_⟩
    · simp only [List.map_cons, Sys.run, Sys.step, hs, List.getElem?_cons_zero, Sys.insert, e1, g1]
    · rw [if_neg (by simp)]
      rcases hx with hx | hx
      · rcases List.mem_cons.1 hx with rfl | hx
        · right; simp [Spec.Map.set]
        · exact .inl hx
      · right
        unfold Spec.Map.set
        split
        · rfl
        · exact hx

/-- **C83**, deep tries. Whatever number of nodes inside each other a format allows, there is a program whose trie is serialised and cannot be read back. -/
theorem C83_too_deep (light : Bool) {limit : Nat} (hl : limit ≤ 2 ^ 59) : ∃ s rs t, (Sys.new light).run K (deepOps limit) = .ok (s, rs) ∧
    s.tries[0]? = some t ∧ Trie.ofSerde limit t.toSerde = .error (.err "recursion limit exceeded") := by
  obtain ⟨s, rs, t, m, h1, h2, h3, h4⟩ := inserts_run (K := K) ((List.range (limit + 1)).map fun i => List.replicate i 0)
    (by
      intro k hk
      obtain ⟨i, hi, rfl⟩ := List.mem_map.1 hk
      have := List.mem_range.1 hi
      rw [List.length_replicate]
      omega)
    (s := ⟨Db.new light, [Trie.new K], []⟩) rfl (m := fun _ => none) ⟨.empty, .node .empty, trivial, Agrees.empty⟩
  refine ⟨s, .done :: rs, t, ?_, by rw [h2]; rfl, ?_⟩
  · rw [List.map_map] at h1
    simp only [deepOps, Sys.run, Sys.step]
    show (match Sys.run K ⟨Db.new light, [Trie.new K], []⟩ _ with
      | .error e => .error e
      | .ok (s, rs) => .ok (s, Ret.done :: rs) : Res (Sys × List Ret)) = _
    erw [h1]
  · rw [C83_roundtrip (by obtain ⟨_, h, -⟩ := h3; exact h.bytewise)]
    exact if_neg (by
      have := h3.height limit (fun i hi => h4 _ (.inl (List.mem_map.2 ⟨i, List.mem_range.2 (by omega), rfl⟩)))
      omega)

end Verif.Props
