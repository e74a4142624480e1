import Verif.Props.Native.OpenSame
import Verif.Props.Native.GoReader

/-!
# C97: an archive that Rust opens is the same archive in Python
-/

namespace Props
open Py Spec Model Model.Native _root_.Native

/-! ## Directories as Rust and as Python see them -/

/-- The parts of a path, joined. -/
def joinPath : List String → String
  | [] => ""
  | [n] => n
  | n :: m :: rest => n ++ "/" ++ joinPath (m :: rest)

/-- The regular file one gets to by going through directories. -/
def fileAt : Node → List String → Option Bytes
  | _, [] => none
  | node, [n] => match node.entry n with
    | some (.file b) => some b
    | _ => none
  | node, n :: m :: rest => match node.entry n with
    | some (.dir e) => fileAt (.dir e) (m :: rest)
    | _ => none

/-- A name that can be the name of a directory entry, without extension. -/
def PlainName (n : String) : Prop := '/' ∉ n.toList ∧ '.' ∉ n.toList

/-- `f` gives the contents of the files below the directory `node`, by their paths. -/
def FilesBelow (node : Node) (f : Files) : Prop :=
  ∀ path : List String, path ≠ [] → (∀ n ∈ path, '/' ∉ n.toList) → f (joinPath path) = fileAt node path

/-! ## The same declarations -/

/-- The resources of an archive in generated Rust code, and in the generated Python class: the same kinds, names, schemas, structures
of the same size. -/
inductive SameDecls : List RustResource → List (String × Sig) → Prop where
  | nil : SameDecls [] []
  | vector {rs ps name schema optional maxSize overlapping t} (rest : SameDecls rs ps) :
    SameDecls (.vector name schema optional maxSize overlapping t.sizeInBytes :: rs) ((name, .vector t schema optional) :: ps)
  | instance {rs ps name schema optional maxSize t} (rest : SameDecls rs ps) :
    SameDecls (.instance name schema optional maxSize t.sizeInBytes :: rs) ((name, .instance t schema optional) :: ps)
  | rawData {rs ps name schema optional maxSize} (rest : SameDecls rs ps) :
    SameDecls (.rawData name schema optional maxSize :: rs) ((name, .rawData schema optional) :: ps)
  | multivector {rs ps name schema optional maxSize w ns ts} (rest : SameDecls rs ps) :
    SameDecls (.multivector name schema optional maxSize w :: rs) ((name, .multivector (indexType ns w) ts schema optional) :: ps)
  | archive {rs ps name optional maxSize archiveName archiveSchema resources ps' schema} (inner : SameDecls resources ps')
    (rest : SameDecls rs ps) :
    SameDecls (.archive name optional maxSize archiveName archiveSchema resources :: rs)
      ((name, .sub archiveName archiveSchema (mkArchive archiveName archiveSchema ps').resources schema optional) :: ps)

/-- The name of a resource. -/
def resourceName : RustResource → String
  | .vector name .. => name
  | .instance name .. => name
  | .rawData name .. => name
  | .multivector name .. => name
  | .archive name .. => name

mutual
/-- The resources of an archive have different names, without `/` and `.`; so have the resources of its sub-archives. -/
def GoodNames : List RustResource → Prop
  | [] => True
  | r :: rs => (∀ r' ∈ rs, resourceName r' ≠ resourceName r) ∧ GoodName r ∧ GoodNames rs

/-- The same for one resource. -/
def GoodName : RustResource → Prop
  | .vector name .. => PlainName name
  | .instance name .. => PlainName name
  | .rawData name .. => PlainName name
  | .multivector name .. => PlainName name
  | .archive name _ _ archiveName _ resources => PlainName name ∧ PlainName archiveName ∧ GoodNames resources
end

mutual
/-- Where a resource is not there, there is no schema of it either; where a sub-archive has no signature, there is no directory. -/
def NoLeftovers (node : Node) : List RustResource → Prop
  | [] => True
  | r :: rs => NoLeftover node r ∧ NoLeftovers node rs

/-- The same for one resource. -/
def NoLeftover (node : Node) : RustResource → Prop
  | .vector name .. => fileAt node [name] = none → node.entry (name ++ ".schema") = none
  | .instance name .. => fileAt node [name] = none → node.entry (name ++ ".schema") = none
  | .rawData name .. => fileAt node [name] = none → node.entry (name ++ ".schema") = none
  | .multivector name .. => fileAt node [name] = none → node.entry (name ++ ".schema") = none
  | .archive name _ _ archiveName _ resources =>
    (fileAt node [name, archiveName ++ ".archive"] = none → node.entry name = none) ∧
    ∀ e, node.entry name = some (.dir e) → NoLeftovers (.dir e) resources
end

/-! ## The same contents -/

/-- What Rust shows for the resources with these signatures, and what the attributes `pl` of the Python archive are: the same bytes with
the size before them and eight bytes behind them; the number of elements is that of all elements in these bytes (Rust does not count the
last one if there are ranges). Where Rust shows a vector, data or a multivector without any elements, the attribute in Python is `None`. -/
inductive ShownInPython : List (String × Loaded) → List (String × Sig) → List (String × Option RustOpened) → Prop where
  | nil {pl} : ShownInPython pl [] []
  | absent {pl ps l name sig} (h : pl.lookup name = some .absent) (rest : ShownInPython pl ps l) :
    ShownInPython pl ((name, sig) :: ps) ((name, none) :: l)
  | vector {pl ps l name t schema optional p len tail} (ht : tail.length = 8) (hp : p ≠ []) (hd : t.sizeInBytes ∣ p.length)
    (hl : len = p.length / t.sizeInBytes ∨ len + 1 = p.length / t.sizeInBytes)
    (h : pl.lookup name = some (.vector ⟨toLE 8 p.length ++ p ++ tail, t, p.length / t.sizeInBytes⟩)) (rest : ShownInPython pl ps l) :
    ShownInPython pl ((name, .vector t schema optional) :: ps) ((name, some (.vector ⟨p, len⟩)) :: l)
  | emptyVector {pl ps l name t schema optional} (h : pl.lookup name = some .absent) (rest : ShownInPython pl ps l) :
    ShownInPython pl ((name, .vector t schema optional) :: ps) ((name, some (.vector ⟨[], 0⟩)) :: l)
  | instance {pl ps l name t schema optional p tail} (ht : tail.length = 8) (hp : t.sizeInBytes ≤ p.length)
    (h : pl.lookup name = some (.instance ⟨toLE 8 p.length ++ p ++ tail, t⟩)) (rest : ShownInPython pl ps l) :
    ShownInPython pl ((name, .instance t schema optional) :: ps) ((name, some (.instance p)) :: l)
  | rawData {pl ps l name schema optional p tail} (ht : tail.length = 8) (hp : p ≠ [])
    (h : pl.lookup name = some (.rawData ⟨toLE 8 p.length ++ p ++ tail⟩)) (rest : ShownInPython pl ps l) :
    ShownInPython pl ((name, .rawData schema optional) :: ps) ((name, some (.rawData p)) :: l)
  | emptyRawData {pl ps l name schema optional} (h : pl.lookup name = some .absent) (rest : ShownInPython pl ps l) :
    ShownInPython pl ((name, .rawData schema optional) :: ps) ((name, some (.rawData [])) :: l)
  | multivector {pl ps l name it ts schema optional index len data tail tail'} (ht : tail.length = 8) (ht' : tail'.length = 8) (hn : 0 < len)
    (hl : index.length = it.sizeInBytes * (len + 1))
    (h : pl.lookup name = some (.multivector ⟨toLE 8 index.length ++ index ++ tail, it, len + 1⟩
      (.bytes (toLE 8 data.length ++ data ++ tail')) ts)) (rest : ShownInPython pl ps l) :
    ShownInPython pl ((name, .multivector it ts schema optional) :: ps) ((name, some (.multivector ⟨⟨index, len⟩, data⟩)) :: l)
  | emptyMultivector {pl ps l name it ts schema optional index data} (h : pl.lookup name = some .absent) (rest : ShownInPython pl ps l) :
    ShownInPython pl ((name, .multivector it ts schema optional) :: ps) ((name, some (.multivector ⟨⟨index, 0⟩, data⟩)) :: l)
  | archive {pl ps l name archiveName archiveSchema ps' schema optional i pl'}
    (inner : ShownInPython pl' ps' i) (h : pl.lookup name = some (.archive archiveName pl')) (rest : ShownInPython pl ps l) :
    ShownInPython pl ((name, .sub archiveName archiveSchema (mkArchive archiveName archiveSchema ps').resources schema optional) :: ps)
      ((name, some (.archive i)) :: l)

/-! ## Proof -/

theorem joinPath_one (n : String) : joinPath [n] = n := rfl

theorem joinPath_cons {n : String} {path : List String} (h : path ≠ []) : joinPath (n :: path) = n ++ "/" ++ joinPath path := by
  cases path with
  | nil => exact absurd rfl h
  | cons m rest => rfl

theorem filesBelow_one {node : Node} {f : Files} (h : FilesBelow node f) {n : String} (hn : '/' ∉ n.toList) :
    f n = fileAt node [n] := by
  have := h [n] (by simp) (by simpa using hn)
  rwa [joinPath_one] at this

theorem fileAt_one {node : Node} {n : String} {b : Bytes} : fileAt node [n] = some b ↔ node.entry n = some (.file b) := by
  rw [fileAt]
  cases node.entry n with
  | none => simp
  | some m => cases m <;> simp

theorem filesBelow_dir {node : Node} {f : Files} (h : FilesBelow node f) {n : String} (hn : '/' ∉ n.toList) {e : String → Option Node}
    (he : node.entry n = some (.dir e)) : FilesBelow (.dir e) (subdir f n) := by
  intro path hp hpl
  have := h (n :: path) (by simp) (by simpa using ⟨hn, hpl⟩)
  rw [joinPath_cons hp] at this
  rw [subdir, this]
  cases path with
  | nil => exact absurd rfl hp
  | cons m rest => simp only [fileAt, he]

theorem filesBelow_below {node : Node} {f : Files} (h : FilesBelow node f) {n m : String} (hn : '/' ∉ n.toList) (hm : '/' ∉ m.toList) :
    subdir f n m = fileAt node [n, m] := by
  have := h [n, m] (by simp) (by simpa using ⟨hn, hm⟩)
  rw [joinPath_cons (by simp), joinPath_one] at this
  exact this

theorem header_tail {p tail : Bytes} (h : p.length < 2 ^ 64) : unsignedAt (toLE 8 p.length ++ p ++ tail) 0 64 = p.length := by
  have h1 := frame_header p h
  have hl : (toLE 8 p.length).length = 8 := Py.toLE_length 8 p.length
  conv_rhs => rw [← h1]
  rw [frame]
  apply Nat.eq_of_testBit_eq; intro k
  rw [unsignedAt_testBit, unsignedAt_testBit]
  by_cases hk : k < 64
  · rw [List.append_assoc, List.append_assoc, bitAt_append_left (by omega), bitAt_append_left (by omega)]
  · simp [hk]

theorem framed_length {p tail : Bytes} (ht : tail.length = 8) : (toLE 8 p.length ++ p ++ tail).length = 16 + p.length := by
  simp [Py.toLE_length, ht]; omega

theorem framed_hasFile {k : StorageKind} {node : Node} {name : String} {p tail : Bytes} (ht : tail.length = 8)
    (h : node.entry name = some (.file (toLE 8 p.length ++ p ++ tail))) : HasFile k node name (toLE 8 p.length ++ p ++ tail) := by
  refine ⟨h, fun _ e => ?_⟩
  have := framed_length (p := p) ht
  rw [e] at this
  simp at this; omega

theorem fetch_framed {k : StorageKind} {node : Node} {name : String} {p tail : Bytes} {o : Bool} (ht : tail.length = 8)
    (h : node.entry name = some (.file (toLE 8 p.length ++ p ++ tail))) :
    fetch k node name o = .ok (.bytes (toLE 8 p.length ++ p ++ tail)) :=
  fetch_ok_iff.mpr (.inr (.inl ⟨_, framed_hasFile ht h, rfl⟩))

theorem noSlash_append {a b : String} (ha : '/' ∉ a.toList) (hb : '/' ∉ b.toList) : '/' ∉ (a ++ b).toList := by
  rw [String.toList_append, List.mem_append]
  rintro (h | h)
  · exact ha h
  · exact hb h

/-- The files of a resource, in the directory. -/
theorem good_node {node : Node} {f : Files} (hf : FilesBelow node f) {name schema : String} (hn : '/' ∉ name.toList) {p : Bytes}
    (h : GoodResource f name schema p) : ∃ tail, tail.length = 8 ∧ node.entry name = some (.file (toLE 8 p.length ++ p ++ tail)) ∧
      node.entry (name ++ ".schema") = some (.file (encodeUtf8 schema)) := by
  obtain ⟨tail, h1, h2, h3⟩ := h
  rw [filesBelow_one hf hn] at h1
  rw [filesBelow_one hf (noSlash_append hn (by decide))] at h3
  exact ⟨tail, h2, fileAt_one.mp h1, fileAt_one.mp h3⟩

/-- Small files: below 2⁶³ bytes. -/
def HalfFiles (f : Files) : Prop := ∀ n b, f n = some b → b.length < 2 ^ 63

theorem half_good {f : Files} (hs : HalfFiles f) {name schema : String} {p : Bytes} (h : GoodResource f name schema p) : p.length < 2 ^ 63 := by
  obtain ⟨tail, h1, h2, -⟩ := h
  have := hs _ _ h1
  rw [framed_length h2] at this
  omega

theorem py_leaf {k : StorageKind} {node : Node} {name : String} {sig : Sig} {x : Loaded} (hl : Leaf sig)
    (hs : SchemaMatches node name sig.schema) (hc : openContainer k node name sig = .ok x) : openResource k node name sig = .ok x := by
  rw [openResource_leaf hl, bind_ok_iff]
  exact ⟨true, checkSchema_true_iff.mpr hs, by simpa using hc⟩

theorem py_absent {k : StorageKind} {node : Node} {name : String} {sig : Sig} (hl : Leaf sig) (ho : sig.isOptional = true)
    (hs : node.entry (name ++ ".schema") = none) : openResource k node name sig = .ok .absent := by
  rw [openResource_leaf hl, bind_ok_iff]
  exact ⟨false, checkSchema_false_iff.mpr ⟨ho, .inl hs⟩, rfl⟩

theorem py_vector {k : StorageKind} {node : Node} {name schema : String} {o : Bool} {t : StructType} {p tail : Bytes} (ht : tail.length = 8)
    (hp : p.length < 2 ^ 63) (h0 : 0 < t.sizeInBytes) (hd : t.sizeInBytes ∣ p.length)
    (h : node.entry name = some (.file (toLE 8 p.length ++ p ++ tail))) :
    openContainer k node name (.vector t schema o) =
      .ok (if p = [] then .absent else .vector ⟨toLE 8 p.length ++ p ++ tail, t, p.length / t.sizeInBytes⟩) := by
  have hh : unsignedAt (toLE 8 p.length ++ p ++ tail) 0 64 = p.length := header_tail (by omega)
  simp only [openContainer]
  rw [bind_ok_iff]; refine ⟨_, fetch_framed ht h, ?_⟩
  rw [bind_ok_iff]; refine ⟨_, rfl, ?_⟩
  rw [bind_ok_iff]
  refine ⟨_, vector_open_iff.mpr ⟨by rw [framed_length ht]; omega, h0, by rw [hh]; exact Nat.mod_eq_zero_of_dvd hd, rfl⟩, ?_⟩
  rw [hh]
  refine ifTruthy_ok_iff.mpr ⟨_, pyLen_ok_iff.mpr ⟨lt_of_le_of_lt (Nat.div_le_self _ _) hp, rfl⟩, ?_⟩
  by_cases hp0 : p = []
  · rw [if_pos hp0, if_pos]; simp [hp0]
  · rw [if_neg hp0, if_neg]
    show p.length / t.sizeInBytes ≠ 0
    have : 0 < p.length := List.length_pos_iff.mpr hp0
    exact (Nat.div_pos (Nat.le_of_dvd this hd) h0).ne'

theorem py_raw {k : StorageKind} {node : Node} {name schema : String} {o : Bool} {p tail : Bytes} (ht : tail.length = 8)
    (hp : p.length < 2 ^ 63) (h : node.entry name = some (.file (toLE 8 p.length ++ p ++ tail))) :
    openContainer k node name (.rawData schema o) = .ok (if p = [] then .absent else .rawData ⟨toLE 8 p.length ++ p ++ tail⟩) := by
  have hh : unsignedAt (toLE 8 p.length ++ p ++ tail) 0 64 = p.length := header_tail (by omega)
  simp only [openContainer]
  rw [bind_ok_iff]; refine ⟨_, fetch_framed ht h, ?_⟩
  rw [bind_ok_iff]; refine ⟨_, rfl, ?_⟩
  have hl : 16 ≤ (toLE 8 p.length ++ p ++ tail).length := by rw [framed_length ht]; omega
  rw [bind_ok_iff]; refine ⟨_, raw_open_iff.mpr ⟨hl, rfl⟩, ?_⟩
  rw [raw_len_eq hl, hh]
  refine ifTruthy_ok_iff.mpr ⟨_, pyLen_ok_iff.mpr ⟨hp, rfl⟩, ?_⟩
  by_cases hp0 : p = []
  · rw [if_pos hp0, if_pos]; simp [hp0]
  · rw [if_neg hp0, if_neg]; simpa using hp0

theorem py_instance {k : StorageKind} {node : Node} {name schema : String} {o : Bool} {t : StructType} {p tail : Bytes} (ht : tail.length = 8)
    (h : node.entry name = some (.file (toLE 8 p.length ++ p ++ tail))) :
    openContainer k node name (.instance t schema o) = .ok (.instance ⟨toLE 8 p.length ++ p ++ tail, t⟩) := by
  simp only [openContainer]
  rw [bind_ok_iff]; refine ⟨_, fetch_framed ht h, ?_⟩
  rw [bind_ok_iff]; refine ⟨_, rfl, ?_⟩
  rw [bind_ok_iff]; refine ⟨_, instance_open_iff.mpr ⟨by rw [framed_length ht]; omega, rfl⟩, ?_⟩
  exact ifTruthy_ok_iff.mpr ⟨1, rfl, rfl⟩

theorem py_multi {k : StorageKind} {node : Node} {name schema : String} {o : Bool} {it : StructType} {ts : List StructType}
    {index data tail tail' : Bytes} (ht : tail.length = 8) (ht' : tail'.length = 8)
    (hp : index.length < 2 ^ 63) (h0 : 0 < it.sizeInBytes) (hd : it.sizeInBytes ∣ index.length)
    (h : node.entry (name ++ "_index") = some (.file (toLE 8 index.length ++ index ++ tail)))
    (h' : node.entry name = some (.file (toLE 8 data.length ++ data ++ tail'))) :
    openContainer k node name (.multivector it ts schema o) =
      .ok (if index.length / it.sizeInBytes - 1 = 0 then .absent else
        .multivector ⟨toLE 8 index.length ++ index ++ tail, it, index.length / it.sizeInBytes⟩ (.bytes (toLE 8 data.length ++ data ++ tail')) ts) := by
  have hh : unsignedAt (toLE 8 index.length ++ index ++ tail) 0 64 = index.length := header_tail (by omega)
  have hlt : index.length / it.sizeInBytes < 2 ^ 63 := lt_of_le_of_lt (Nat.div_le_self _ _) hp
  simp only [openContainer]
  rw [bind_ok_iff]; refine ⟨_, fetch_framed ht h, ?_⟩
  rw [bind_ok_iff]; refine ⟨_, fetch_framed ht' h', ?_⟩
  rw [bind_ok_iff]; refine ⟨_, rfl, ?_⟩
  rw [bind_ok_iff]
  refine ⟨_, vector_open_iff.mpr ⟨by rw [framed_length ht]; omega, h0, by rw [hh]; exact Nat.mod_eq_zero_of_dvd hd, rfl⟩, ?_⟩
  rw [hh]
  refine ifTruthy_ok_iff.mpr ⟨index.length / it.sizeInBytes - 1, ?_, rfl⟩
  unfold multivectorLen
  exact bind_ok_iff.mpr ⟨_, pyLen_ok_iff.mpr ⟨hlt, rfl⟩, pyLen_ok_iff.mpr ⟨by show index.length / it.sizeInBytes - 1 < _; omega, rfl⟩⟩

theorem sameDecls_names {rs : List RustResource} {ps : List (String × Sig)} (h : SameDecls rs ps) :
    ps.map (·.1) = rs.map resourceName := by
  induction h with
  | nil => rfl
  | vector _ ih => simp [ih, resourceName]
  | «instance» _ ih => simp [ih, resourceName]
  | rawData _ ih => simp [ih, resourceName]
  | multivector _ ih => simp [ih, resourceName]
  | archive _ _ _ ih => simp [ih, resourceName]

theorem goodName_plain {r : RustResource} (h : GoodName r) : PlainName (resourceName r) := by
  cases r <;> simp only [GoodName] at h <;> first | exact h | exact h.1

theorem goodNames_mem {rs : List RustResource} (h : GoodNames rs) : ∀ r ∈ rs, GoodName r := by
  induction rs with
  | nil => simp
  | cons r rs ih =>
    rw [GoodNames] at h
    intro r' hr
    rcases List.mem_cons.mp hr with rfl | hr
    · exact h.2.1
    · exact ih h.2.2 r' hr

theorem goodNames_nodup {rs : List RustResource} (h : GoodNames rs) : (rs.map resourceName).Nodup := by
  induction rs with
  | nil => simp
  | cons r rs ih =>
    rw [GoodNames] at h
    rw [List.map_cons, List.nodup_cons]
    refine ⟨fun hm => ?_, ih h.2.2⟩
    obtain ⟨r', hr', e⟩ := List.mem_map.mp hm
    exact h.1 r' hr' e

theorem mkArchive_nodup {rs : List RustResource} {ps : List (String × Sig)} (h : SameDecls rs ps) (hn : GoodNames rs) (an asch : String) :
    ((mkArchive an asch ps).resources.map (·.1)).Nodup := by
  simp only [mkArchive, List.map_cons]
  rw [List.nodup_cons, sameDecls_names h]
  refine ⟨fun hm => ?_, goodNames_nodup hn⟩
  obtain ⟨r, hr, e⟩ := List.mem_map.mp hm
  have := (goodName_plain (goodNames_mem hn r hr)).2
  rw [e, String.toList_append] at this
  exact this (List.mem_append.mpr (Or.inr (by decide)))

/-- What Python does with the resources, one by one (`g` gives what it opens). -/
theorem sameDecls_open {f : Files} {rs : List RustResource} {l : List (String × Option RustOpened)} (h : OpensTo f rs l) :
    ∀ {ps : List (String × Sig)} {node : Node} (k : StorageKind), SameDecls rs ps → FilesBelow node f → HalfFiles f → HaveSchemas rs →
      GoodNames rs → NoLeftovers node rs →
      (∀ p ∈ ps, ∃ x, openResource k node p.1 p.2 = .ok x) ∧
      ∀ pl : List (String × Loaded), (∀ p ∈ ps, ∃ x, openResource k node p.1 p.2 = .ok x ∧ pl.lookup p.1 = some x) → ShownInPython pl ps l := by
  induction h with
  | nil f =>
    intro ps node k hd _ _ _ _ _
    cases hd
    exact ⟨by simp, fun _ _ => .nil⟩
  | noVector h _ ih =>
    intro ps node k hd hf hh hs hn hl
    cases hd with
    | vector rest =>
      rw [HaveSchemas] at hs; rw [GoodNames, GoodName] at hn; rw [NoLeftovers, NoLeftover] at hl
      obtain ⟨h1, h2⟩ := ih k rest hf hh hs.2 hn.2.2 hl.2
      rw [filesBelow_one hf hn.2.1.1] at h
      have ho := fun t s => py_absent (k := k) (sig := .vector t s true) trivial rfl (hl.1 h)
      refine ⟨by simpa [ho] using h1, fun pl hpl => ?_⟩
      obtain ⟨x, hx, hx'⟩ := hpl _ (List.mem_cons_self ..)
      rw [ho] at hx; cases hx
      exact .absent hx' (h2 pl fun p hp => hpl p (List.mem_cons_of_mem _ hp))
  | noInstance h _ ih =>
    intro ps node k hd hf hh hs hn hl
    cases hd with
    | «instance» rest =>
      rw [HaveSchemas] at hs; rw [GoodNames, GoodName] at hn; rw [NoLeftovers, NoLeftover] at hl
      obtain ⟨h1, h2⟩ := ih k rest hf hh hs.2 hn.2.2 hl.2
      rw [filesBelow_one hf hn.2.1.1] at h
      have ho := fun t s => py_absent (k := k) (sig := .instance t s true) trivial rfl (hl.1 h)
      refine ⟨by simpa [ho] using h1, fun pl hpl => ?_⟩
      obtain ⟨x, hx, hx'⟩ := hpl _ (List.mem_cons_self ..)
      rw [ho] at hx; cases hx
      exact .absent hx' (h2 pl fun p hp => hpl p (List.mem_cons_of_mem _ hp))
  | noRawData h _ ih =>
    intro ps node k hd hf hh hs hn hl
    cases hd with
    | rawData rest =>
      rw [HaveSchemas] at hs; rw [GoodNames, GoodName] at hn; rw [NoLeftovers, NoLeftover] at hl
      obtain ⟨h1, h2⟩ := ih k rest hf hh hs.2 hn.2.2 hl.2
      rw [filesBelow_one hf hn.2.1.1] at h
      have ho := fun s => py_absent (k := k) (sig := .rawData s true) trivial rfl (hl.1 h)
      refine ⟨by simpa [ho] using h1, fun pl hpl => ?_⟩
      obtain ⟨x, hx, hx'⟩ := hpl _ (List.mem_cons_self ..)
      rw [ho] at hx; cases hx
      exact .absent hx' (h2 pl fun p hp => hpl p (List.mem_cons_of_mem _ hp))
  | noMultivector h _ _ ih =>
    intro ps node k hd hf hh hs hn hl
    cases hd with
    | multivector rest =>
      rw [HaveSchemas] at hs; rw [GoodNames, GoodName] at hn; rw [NoLeftovers, NoLeftover] at hl
      obtain ⟨h1, h2⟩ := ih k rest hf hh hs.2 hn.2.2 hl.2
      rw [filesBelow_one hf hn.2.1.1] at h
      have ho := fun it ts s => py_absent (k := k) (sig := .multivector it ts s true) trivial rfl (hl.1 h)
      refine ⟨by simpa [ho] using h1, fun pl hpl => ?_⟩
      obtain ⟨x, hx, hx'⟩ := hpl _ (List.mem_cons_self ..)
      rw [ho] at hx; cases hx
      exact .absent hx' (h2 pl fun p hp => hpl p (List.mem_cons_of_mem _ hp))
  | @noArchive f rs l name maxSize an asch resources h _ ih =>
    intro ps node k hd hf hh hs hn hl
    cases hd with
    | archive inner rest =>
      rw [HaveSchemas] at hs; rw [GoodNames, GoodName] at hn; rw [NoLeftovers, NoLeftover] at hl
      obtain ⟨h1, h2⟩ := ih k rest hf hh hs.2 hn.2.2 hl.2
      have hb := filesBelow_below hf hn.2.1.1.1 (noSlash_append hn.2.1.2.1.1 (b := ".archive") (by decide))
      rw [subdir] at hb
      rw [hb] at h
      have he := hl.1.1 h
      have ho : ∀ n asch rs sch, openResource k node name (.sub n asch rs sch true) = .ok .absent := by
        intro n asch rs sch
        simp only [openResource]
        rw [bind_ok_iff]
        exact ⟨.none, fetch_ok_iff.mpr (.inl ⟨he, rfl, rfl⟩), rfl⟩
      refine ⟨by simpa [ho] using h1, fun pl hpl => ?_⟩
      obtain ⟨x, hx, hx'⟩ := hpl _ (List.mem_cons_self ..)
      rw [ho] at hx; cases hx
      exact .absent hx' (h2 pl fun p hp => hpl p (List.mem_cons_of_mem _ hp))
  | @vector f rs l name schema optional maxSize overlapping n p hg h0 hdv hov hm _ ih =>
    intro ps node k hd hf hh hs hn hl
    cases hd with
    | @vector _ _ _ _ _ _ _ t rest =>
      rw [HaveSchemas, HaveSchema] at hs; rw [GoodNames, GoodName] at hn; rw [NoLeftovers, NoLeftover] at hl
      obtain ⟨h1, h2⟩ := ih k rest hf hh hs.2 hn.2.2 hl.2
      obtain ⟨tail, ht, hfile, hsch⟩ := good_node hf hn.2.1.1 hg
      have hlen := half_good hh hg
      have ho := py_leaf (k := k) (sig := .vector t schema optional) trivial ⟨hs.1, hsch⟩ (py_vector ht hlen h0 hdv hfile)
      refine ⟨by simpa [ho] using h1, fun pl hpl => ?_⟩
      obtain ⟨x, hx, hx'⟩ := hpl _ (List.mem_cons_self ..)
      rw [ho] at hx; cases hx
      have h3 := h2 pl fun p hp => hpl p (List.mem_cons_of_mem _ hp)
      by_cases hp : p = []
      · subst hp
        rw [if_pos rfl] at hx'
        have : (if overlapping = true then ([] : Bytes).length / t.sizeInBytes - 1 else ([] : Bytes).length / t.sizeInBytes) = 0 := by
          simp
        rw [this]
        exact .emptyVector hx' h3
      · rw [if_neg hp] at hx'
        refine .vector ht hp hdv ?_ hx' h3
        have : 0 < p.length / t.sizeInBytes := Nat.div_pos (Nat.le_of_dvd (List.length_pos_iff.mpr hp) hdv) h0
        split
        · right; omega
        · left; rfl
  | @«instance» f rs l name schema optional maxSize n p hg hnp _ ih =>
    intro ps node k hd hf hh hs hn hl
    cases hd with
    | @«instance» _ _ _ _ _ _ t rest =>
      rw [HaveSchemas, HaveSchema] at hs; rw [GoodNames, GoodName] at hn; rw [NoLeftovers, NoLeftover] at hl
      obtain ⟨h1, h2⟩ := ih k rest hf hh hs.2 hn.2.2 hl.2
      obtain ⟨tail, ht, hfile, hsch⟩ := good_node hf hn.2.1.1 hg
      have ho := py_leaf (k := k) (sig := .instance t schema optional) trivial ⟨hs.1, hsch⟩ (py_instance ht hfile)
      refine ⟨by simpa [ho] using h1, fun pl hpl => ?_⟩
      obtain ⟨x, hx, hx'⟩ := hpl _ (List.mem_cons_self ..)
      rw [ho] at hx; cases hx
      exact .instance ht hnp hx' (h2 pl fun p hp => hpl p (List.mem_cons_of_mem _ hp))
  | @rawData f rs l name schema optional maxSize p hg hm _ ih =>
    intro ps node k hd hf hh hs hn hl
    cases hd with
    | rawData rest =>
      rw [HaveSchemas, HaveSchema] at hs; rw [GoodNames, GoodName] at hn; rw [NoLeftovers, NoLeftover] at hl
      obtain ⟨h1, h2⟩ := ih k rest hf hh hs.2 hn.2.2 hl.2
      obtain ⟨tail, ht, hfile, hsch⟩ := good_node hf hn.2.1.1 hg
      have ho := py_leaf (k := k) (sig := .rawData schema optional) trivial ⟨hs.1, hsch⟩ (py_raw ht (half_good hh hg) hfile)
      refine ⟨by simpa [ho] using h1, fun pl hpl => ?_⟩
      obtain ⟨x, hx, hx'⟩ := hpl _ (List.mem_cons_self ..)
      rw [ho] at hx; cases hx
      have h3 := h2 pl fun p hp => hpl p (List.mem_cons_of_mem _ hp)
      by_cases hp : p = []
      · subst hp
        rw [if_pos rfl] at hx'
        exact .emptyRawData hx' h3
      · rw [if_neg hp] at hx'
        exact .rawData ht hp hx' h3
  | @multivector f rs l name schema optional maxSize w index data hi hg h0 hdv hov hm _ ih =>
    intro ps node k hd hf hh hs hn hl
    cases hd with
    | @multivector _ _ _ _ _ _ _ ns ts rest =>
      rw [HaveSchemas, HaveSchema] at hs; rw [GoodNames, GoodName] at hn; rw [NoLeftovers, NoLeftover] at hl
      obtain ⟨h1, h2⟩ := ih k rest hf hh hs.2 hn.2.2 hl.2
      obtain ⟨tail', ht', hfile', hsch⟩ := good_node hf hn.2.1.1 hg
      obtain ⟨tail, ht, hfile, -⟩ := good_node hf (noSlash_append hn.2.1.1 (by decide)) hi
      have hsz := indexType_size ns w
      rw [← hsz] at h0 hdv hov
      have ho := py_leaf (k := k) (sig := .multivector (indexType ns w) ts schema optional) trivial ⟨hs.1, hsch⟩
        (py_multi ht ht' (half_good hh hi) h0 hdv hfile hfile')
      refine ⟨by simpa [ho] using h1, fun pl hpl => ?_⟩
      obtain ⟨x, hx, hx'⟩ := hpl _ (List.mem_cons_self ..)
      rw [ho] at hx; cases hx
      have h3 := h2 pl fun p hp => hpl p (List.mem_cons_of_mem _ hp)
      have hpos : 0 < index.length / (indexType ns w).sizeInBytes := Nat.div_pos hov h0
      have hmul : (indexType ns w).sizeInBytes * (index.length / (indexType ns w).sizeInBytes) = index.length := Nat.mul_div_cancel' hdv
      rw [← hsz]
      by_cases hz : index.length / (indexType ns w).sizeInBytes - 1 = 0
      · rw [if_pos hz] at hx'
        rw [hz]
        exact .emptyMultivector hx' h3
      · rw [if_neg hz] at hx'
        have e : index.length / (indexType ns w).sizeInBytes - 1 + 1 = index.length / (indexType ns w).sizeInBytes := by omega
        refine .multivector ht ht' (by omega) ?_ ?_ h3
        · rw [e, hmul]
        · rw [e]; exact hx'
  | @archive f rs l name optional maxSize an asch resources p l' hg _ _ ihi ih =>
    intro ps node k hd hf hh hs hn hl
    cases hd with
    | @archive _ _ _ _ _ _ _ _ ps' schema inner rest =>
      rw [HaveSchemas, HaveSchema] at hs; rw [GoodNames, GoodName] at hn; rw [NoLeftovers, NoLeftover] at hl
      obtain ⟨h1, h2⟩ := ih k rest hf hh hs.2 hn.2.2 hl.2
      obtain ⟨tail0, hg1, -, -⟩ := id hg
      rw [filesBelow_below hf hn.2.1.1.1 (noSlash_append hn.2.1.2.1.1 (by decide))] at hg1
      obtain ⟨e, he⟩ : ∃ e, node.entry name = some (.dir e) := by
        rw [fileAt] at hg1
        split at hg1
        · exact ⟨_, ‹_›⟩
        · cases hg1
      have hf' := filesBelow_dir hf hn.2.1.1.1 he
      have hh' : HalfFiles (subdir f name) := fun n b hb => hh _ b hb
      obtain ⟨i1, i2⟩ := ihi k inner hf' hh' hs.1.2 hn.2.1.2.2 (hl.1.2 e he)
      obtain ⟨tail, ht, hfile, hsch⟩ := good_node hf' (noSlash_append hn.2.1.2.1.1 (by decide)) hg
      have hsig := py_leaf (k := k) (sig := .rawData asch false) trivial ⟨hs.1.1, hsch⟩ (py_raw ht (half_good hh' hg) hfile)
      have hall : ∀ q ∈ (mkArchive an asch ps').resources, ∃ x, openResource k (.dir e) q.1 q.2 = .ok x := by
        intro q hq
        simp only [mkArchive, List.mem_cons] at hq
        rcases hq with rfl | hq
        · exact ⟨_, hsig⟩
        · exact i1 q hq
      obtain ⟨pl', hpl'⟩ := load_isOk.mpr hall
      have hnd := mkArchive_nodup inner hn.2.1.2.2 an asch
      have hin : ShownInPython pl' ps' l' := i2 pl' fun q hq =>
        loadAll_sorted_lookup hpl' hnd (show (q.1, q.2) ∈ _ by simp only [mkArchive, List.mem_cons]; exact Or.inr hq)
      have ho : openResource k node name (.sub an asch (mkArchive an asch ps').resources schema optional) = .ok (.archive an pl') := by
        simp only [openResource]
        rw [bind_ok_iff]
        refine ⟨.storage (.dir e), fetch_ok_iff.mpr (.inr (.inr ⟨e, he, rfl⟩)), ?_⟩
        show (loadAll _ >>= _) = _
        rw [bind_ok_iff]
        exact ⟨pl', hpl', ifTruthy_ok_iff.mpr ⟨_, rfl, rfl⟩⟩
      refine ⟨?_, fun pl hpl => ?_⟩
      · intro q hq
        rcases List.mem_cons.mp hq with rfl | hq
        · exact ⟨_, ho⟩
        · exact h1 q hq
      obtain ⟨x, hx, hx'⟩ := hpl _ (List.mem_cons_self ..)
      rw [ho] at hx; cases hx
      exact .archive hin hx' (h2 pl fun p hp => hpl p (List.mem_cons_of_mem _ hp))

/-- **C97.** Whatever the files are (written by a builder or not): an archive that can be opened in Rust can be opened in Python, from the
directory or from a tar archive of it, and shows the same contents - provided that nothing is left over of resources that are not there. -/
theorem C97_rust_then_python (node : Node) (f : Files) (hf : FilesBelow node f) (hh : HalfFiles f) (k : StorageKind)
    (archiveName schema : String) (ha : PlainName archiveName) (hne : schema ≠ "") (rs : List RustResource) (ps : List (String × Sig))
    (hd : SameDecls rs ps) (hs : HaveSchemas rs) (hn : GoodNames rs) (hl : NoLeftovers node rs) (l : List (String × Option RustOpened))
    (h : rustOpen f archiveName schema rs = .ok l) :
    ∃ pl, openArchive (mkArchive archiveName schema ps) k node = .ok pl ∧ ShownInPython pl ps l := by
  have hsm : SmallFiles f := fun n b hb => lt_trans (hh n b hb) (by norm_num)
  obtain ⟨⟨p, hg⟩, ho⟩ := ((C84_rust_open f hsm archiveName schema rs).1 l).mp h
  obtain ⟨i1, i2⟩ := sameDecls_open ho k hd hf hh hs hn hl
  obtain ⟨tail, ht, hfile, hsch⟩ := good_node hf (noSlash_append ha.1 (by decide)) hg
  have hsig := py_leaf (k := k) (sig := .rawData schema false) trivial ⟨hne, hsch⟩ (py_raw ht (half_good hh hg) hfile)
  have hall : ∀ q ∈ (mkArchive archiveName schema ps).resources, ∃ x, openResource k node q.1 q.2 = .ok x := by
    intro q hq
    simp only [mkArchive, List.mem_cons] at hq
    rcases hq with rfl | hq
    · exact ⟨_, hsig⟩
    · exact i1 q hq
  obtain ⟨pl, hpl⟩ := load_isOk.mpr hall
  refine ⟨pl, hpl, i2 pl fun q hq => ?_⟩
  exact loadAll_sorted_lookup hpl (mkArchive_nodup hd hn archiveName schema)
    (show (q.1, q.2) ∈ _ by simp only [mkArchive, List.mem_cons]; exact Or.inr hq)

/-! ## Values -/

/-- **C97 (values).** In the same bytes, whatever they are, the attributes in Python and the getters in Rust have the same values; only
unsigned 64-bit fields that do not begin a byte can be different. -/
theorem C97_same_values (ty : String → RustType) (name : String) (fs : List FieldDecl) (hg : GoodStruct fs) (hr : RustStruct fs)
    (hR : RustTypes ty fs) (head mem tail : Bytes) (hm : ((fs.map (·.width)).sum + 7) / 8 ≤ mem.length) (i : Nat) (fd : FieldDecl)
    (hi : fs[i]? = some fd) (h64 : ¬ (fd.isSigned = false ∧ fd.width = 64 ∧ bitOffset fs i % 8 ≠ 0)) :
    ∃ v, rustGet ty fs mem fd.name = some v ∧
      (StructView.mk (mkStruct name fs) (head ++ mem ++ tail) head.length).getAttr fd.name = .ok v := by
  have hf := List.mem_of_getElem? hi
  have hkeysn : ((layoutFrom 0 fs).map (·.1)).Nodup := by rw [layoutFrom_keys]; exact hg.names
  have hlk := layoutFrom_getElem? 0 fs i
  rw [hi] at hlk
  have hlk := lookup_of_mem_nodup hkeysn (List.mem_of_getElem? hlk)
  obtain ⟨hR1, hR2⟩ := hR fd hf
  have hw := hg.widths fd hf
  have hfit := bitOffset_fits hi
  have hbits : ∀ k, k < fd.width → bitAt (head ++ mem ++ tail) (head.length * 8 + bitOffset fs i + k) = bitAt mem (bitOffset fs i + k) := by
    intro k hk
    rw [List.append_assoc, bitAt_append_right (by omega), bitAt_append_left (by omega)]
    congr 1; omega
  have hu : unsignedAt (head ++ mem ++ tail) (head.length * 8 + bitOffset fs i) fd.width = unsignedAt mem (bitOffset fs i) fd.width := by
    apply Nat.eq_of_testBit_eq; intro k
    rw [unsignedAt_testBit, unsignedAt_testBit]
    by_cases hk : k < fd.width
    · rw [hbits k hk]
    · simp [hk]
  have hb0 := hbits 0 (by omega)
  rw [Nat.add_zero, Nat.add_zero] at hb0
  have hlk' : (mkStruct name fs).fields.lookup fd.name = some ⟨bitOffset fs i, fd.width, fd.isSigned⟩ := by
    simp only [Nat.zero_add] at hlk
    exact hlk
  simp only [rustGet, hlk, Option.bind_eq_bind, Option.bind_some, Nat.zero_add]
  rw [show ((fs.take i).map (·.width)).sum = bitOffset fs i from rfl]
  refine ⟨_, C72_rust_read _ _ _ _ hw.1 hw.2 hR1 (hr i fd hi) (by omega), ?_⟩
  rw [StructView.getAttr, hlk']
  simp only [StructView.getValue]
  rw [C01_read_value _ _ _ _ hw.1 hw.2 (by simp only [List.length_append]; omega), hR2]
  rw [if_neg (c := fd.isSigned = false ∧ fd.width = 64 ∧ _) (by
    rintro ⟨a, b, c⟩; exact h64 ⟨a, b, by omega⟩), hb0]
  simp only [fieldValue, hu]

/-- **C97 (elements).** The elements of a vector that was opened in Rust (`⟨p, len⟩`) and in Python have the same values. -/
theorem C97_same_elements (ty : String → RustType) (name : String) (fs : List FieldDecl) (hg : GoodStruct fs) (hr : RustStruct fs)
    (hR : RustTypes ty fs) (p tail : Bytes) (len size : Nat) (hsz : size * (mkStruct name fs).sizeInBytes = p.length) (hlen : len ≤ size)
    (i : Nat) (hi : i < len) (j : Nat) (fd : FieldDecl) (hj : fs[j]? = some fd)
    (h64 : ¬ (fd.isSigned = false ∧ fd.width = 64 ∧ bitOffset fs j % 8 ≠ 0)) :
    ∃ m x v, RustSlice.at ⟨p, len⟩ (mkStruct name fs).sizeInBytes i = some m ∧ rustGet ty fs m fd.name = some v ∧
      FdVector.get ⟨toLE 8 p.length ++ p ++ tail, mkStruct name fs, size⟩ i = .ok x ∧ x.getAttr fd.name = .ok v := by
  have hs : (mkStruct name fs).sizeInBytes = ((fs.map (·.width)).sum + 7) / 8 := by
    show (sizeInBitsFrom 0 fs + 7) / 8 = _
    rw [sizeInBitsFrom_eq, Nat.zero_add]
  have h1 : (i + 1) * (mkStruct name fs).sizeInBytes ≤ p.length := by
    rw [← hsz]; exact Nat.mul_le_mul_right _ (by omega)
  rw [Nat.add_mul, Nat.one_mul] at h1
  have h1' : (mkStruct name fs).sizeInBytes * i ≤ p.length := by rw [Nat.mul_comm]; omega
  obtain ⟨v, h2, h3⟩ := C97_same_values ty name fs hg hr hR (toLE 8 p.length ++ p.take ((mkStruct name fs).sizeInBytes * i))
    (p.drop ((mkStruct name fs).sizeInBytes * i)) tail (by rw [List.length_drop, ← hs, Nat.mul_comm]; omega) j fd hj h64
  refine ⟨_, StructView.mk (mkStruct name fs) (toLE 8 p.length ++ p ++ tail) (8 + (mkStruct name fs).sizeInBytes * i), v, if_pos hi, h2, ?_, ?_⟩
  · unfold FdVector.get
    have h0 : ¬ ((i : Int) < 0) := by omega
    have h4 : ¬ ((i : Int) ≥ size ∨ (i : Int) < 0) := by omega
    simp only [h0, if_false, bind, Except.bind, pure, Except.pure]
    rw [if_neg (by simpa using (by omega : ¬ ((i : Int) ≥ size)))]
    simp [getItem]
  · have e : toLE 8 p.length ++ p.take ((mkStruct name fs).sizeInBytes * i) ++ p.drop ((mkStruct name fs).sizeInBytes * i) ++ tail =
        toLE 8 p.length ++ p ++ tail := by
      rw [List.append_assoc (toLE 8 p.length), List.take_append_drop]
    rw [e] at h3
    have e2 : (toLE 8 p.length ++ p.take ((mkStruct name fs).sizeInBytes * i)).length = 8 + (mkStruct name fs).sizeInBytes * i := by
      rw [List.length_append, List.length_take, Py.toLE_length]; omega
    rw [e2] at h3
    exact h3

/-- An element of a bucket in Rust (the number of its type, and the memory from it to the end of the bucket) and in Python: the same type, at
the same place in the same bytes. -/
def SameElement (ts : List StructType) (e : Nat × Bytes) (x : StructView) : Prop :=
  ∃ t head tail, ts[e.1]? = some t ∧ t.sizeInBytes ≤ e.2.length ∧ x = ⟨t, head ++ e.2 ++ tail, head.length⟩

theorem unsignedAt_inside {head mem tail : Bytes} {o w : Nat} (h : o + w ≤ 8 * mem.length) :
    unsignedAt (head ++ mem ++ tail) (head.length * 8 + o) w = unsignedAt mem o w := by
  apply Nat.eq_of_testBit_eq; intro k
  rw [unsignedAt_testBit, unsignedAt_testBit]
  by_cases hk : k < w
  · rw [List.append_assoc, bitAt_append_right (by omega), bitAt_append_left (by omega)]
    congr 2; omega
  · simp [hk]

theorem python_elements (data tail : Bytes) (ts : List StructType) (b : Nat) (hb : b ≤ data.length) (head : Bytes) (fuel : Nat) :
    ∀ (a : Nat) (items : List (Nat × Bytes)), a ≤ b → rustItems (ts.map (·.sizeInBytes)) fuel ((data.take b).drop a) = some items →
    ∀ pf, b - a ≤ pf → ∃ views, bucketLoop (head ++ data ++ tail) ts (b + head.length) pf (a + head.length) = .ok views ∧
      List.Forall₂ (SameElement ts) items views := by
  induction fuel with
  | zero =>
    intro a items hab h pf hpf
    rw [rustItems] at h
    split at h
    · cases h
      rename_i he
      have hl := congrArg List.length he
      simp only [List.length_drop, List.length_take, List.length_nil] at hl
      refine ⟨[], ?_, .nil⟩
      cases pf with
      | zero => rfl
      | succ pf => rw [bucketLoop, if_neg (by omega)]; rfl
    · cases h
  | succ fuel ih =>
    intro a items hab h pf hpf
    rw [rustItems] at h
    by_cases hlt : a < b
    · obtain ⟨type, rest, hc⟩ : ∃ type rest, (data.take b).drop a = type :: rest := by
        cases hc : (data.take b).drop a with
        | nil =>
          have hl := congrArg List.length hc
          simp only [List.length_drop, List.length_take, List.length_nil] at hl
          omega
        | cons type rest => exact ⟨type, rest, rfl⟩
      have hrest : rest = (data.take b).drop (a + 1) := by
        rw [← List.tail_drop, hc]; rfl
      have hrl : rest.length = b - (a + 1) := by
        rw [hrest, List.length_drop, List.length_take]; omega
      have hty : (data.take b)[a]? = some type := by
        have := congrArg (·[0]?) hc
        simpa using this
      rw [List.getElem?_take_of_lt hlt] at hty
      rw [hc] at h
      simp only [rustItemNext, Option.bind_eq_bind] at h
      obtain ⟨nx, h1, h⟩ := Option.bind_eq_some_iff.mp h
      obtain ⟨n, hn, h1⟩ := Option.bind_eq_some_iff.mp h1
      split at h1
      · cases h1
      · cases h1
        simp only at h
        obtain ⟨l, hl, h⟩ := Option.bind_eq_some_iff.mp h
        cases h
        rename_i hnl
        rw [List.getElem?_map, Option.map_eq_some_iff] at hn
        obtain ⟨t, htt, rfl⟩ := hn
        rw [hrest, List.drop_drop] at hl
        cases pf with
        | zero => omega
        | succ pf =>
          obtain ⟨views, hv, hvv⟩ := ih (a + 1 + t.sizeInBytes) l (by omega) hl pf (by omega)
          have hread : readValue (head ++ data ++ tail) ((a + head.length) * 8) 8 false = .ok (type.toNat : Int) := by
            rw [C01_read_value _ _ _ _ (by omega) (by omega) (by simp only [List.length_append]; omega), if_neg (by simp), if_neg (by simp)]
            have e : (a + head.length) * 8 = head.length * 8 + a * 8 := by ring
            rw [fieldValue, if_neg (by simp), e, unsignedAt_inside (by omega)]
            have := unsignedAt_drop data a 0 8
            rw [Nat.add_zero] at this
            rw [this]
            have hd : data.drop a = type :: data.drop (a + 1) := by
              rw [List.drop_eq_getElem_cons (by omega : a < data.length)]
              rw [List.getElem?_eq_getElem (by omega : a < data.length)] at hty
              cases hty; rfl
            rw [hd]
            have h256 : type.toNat < 2 ^ 8 := type.toNat_lt
            have : unsignedAt (type :: data.drop (a + 1)) 0 8 = type.toNat := by
              rw [unsignedAt_eq, fromLE]
              have := type.toNat_lt
              simp only [pow_zero, Nat.div_one]
              omega
            rw [this]
          refine ⟨StructView.mk t (head ++ data ++ tail) (a + head.length + 1) :: views, ?_, .cons ?_ hvv⟩
          · rw [bucketLoop, if_pos (by omega), hread]
            simp only [bind, Except.bind, Int.toNat_natCast, htt]
            rw [show a + head.length + 1 + t.sizeInBytes = a + 1 + t.sizeInBytes + head.length by ring, hv]
            rfl
          · refine ⟨t, head ++ data.take (a + 1), data.drop b ++ tail, htt, by show t.sizeInBytes ≤ rest.length; omega, ?_⟩
            have e1 : data.take (a + 1) ++ (rest ++ data.drop b) = data := by
              rw [hrest]
              have : data.take (a + 1) = (data.take b).take (a + 1) := by rw [List.take_take]; congr 1; omega
              rw [this, ← List.append_assoc, List.take_append_drop, List.take_append_drop]
            have e2 : head ++ data.take (a + 1) ++ rest ++ (data.drop b ++ tail) = head ++ data ++ tail := by
              conv_rhs => rw [← e1]
              simp only [List.append_assoc]
            rw [StructView.mk.injEq]
            refine ⟨rfl, e2.symm, ?_⟩
            rw [List.length_append, List.length_take]; omega
    · have he : (data.take b).drop a = [] := by
        apply List.drop_eq_nil_of_le; rw [List.length_take]; omega
      rw [he] at h
      simp only [rustItemNext, Option.bind_eq_bind, Option.bind_some] at h
      cases h
      refine ⟨[], ?_, .nil⟩
      cases pf with
      | zero => rfl
      | succ pf => rw [bucketLoop, if_neg (by omega)]; rfl

/-- **C97 (buckets).** A bucket of a multivector that was opened in Rust and in Python, whatever is in the files: if Rust can go through it,
so can Python, and it has the same elements (with `C97_same_values`: with the same values). -/
theorem C97_same_buckets (w : Nat) (hw : 1 ≤ w) (hw' : w ≤ 64) (ns : String) (ts : List StructType) (index data tail tail' : Bytes) (len : Nat)
    (hl : index.length = (w + 7) / 8 * (len + 1)) (i : Nat) (hi : i < len) (bucket : Bytes) (fuel : Nat) (items : List (Nat × Bytes))
    (hb : RustMulti.at ⟨⟨index, len⟩, data⟩ w i = some bucket) (hit : rustItems (ts.map (·.sizeInBytes)) fuel bucket = some items) :
    ∃ views, Multivector.get ⟨⟨toLE 8 index.length ++ index ++ tail, indexType ns w, len + 1⟩, toLE 8 data.length ++ data ++ tail', ts⟩ i =
        .ok views ∧ List.Forall₂ (SameElement ts) items views := by
  have hsz := indexType_size ns w
  have hh : (toLE 8 index.length).length = 8 := Py.toLE_length 8 _
  have hh' : (toLE 8 data.length).length = 8 := Py.toLE_length 8 _
  -- the place of element `j` of the index
  have hplace : ∀ j, j ≤ len → ((w + 7) / 8 * j) * 8 + w ≤ 8 * index.length := by
    intro j hj
    have := Nat.mul_le_mul_left ((w + 7) / 8) (Nat.succ_le_succ hj)
    rw [hl]
    rw [Nat.mul_succ] at this
    simp only [Nat.succ_eq_add_one] at this
    omega
  -- Rust
  have hr : ∀ o, o % 8 = 0 → ((w + 7) / 8 * i) * 8 + o + w ≤ 8 * index.length →
      rustRead (.int 64 false) (index.drop ((w + 7) / 8 * i)) o w = some (unsignedAt index (((w + 7) / 8 * i) * 8 + o) w : Int) := by
    intro o ho hfit
    rw [C72_rust_read (.int 64 false) _ o w hw hw' ⟨by omega, hw'⟩ (by unfold RustPortable; omega) (by rw [List.length_drop]; omega),
      if_neg (by simp [RustType.isSigned]), fieldValue, if_neg (by simp [RustType.isSigned]), unsignedAt_drop]
  have h2 : (w + 7) / 8 * i * 8 + (0 + (w + 7) / 8 * 8) = (w + 7) / 8 * (i + 1) * 8 := by ring
  have hp1 := hplace i (by omega)
  have hp2 := hplace (i + 1) (by omega)
  unfold RustMulti.at RustSlice.at at hb
  simp only [hi, if_true, Option.bind_eq_bind, Option.bind_some, rustRange] at hb
  rw [hr 0 rfl (by omega), hr (0 + (w + 7) / 8 * 8) (by omega) (by omega), h2] at hb
  simp only [Option.bind_some, Nat.add_zero, Int.toNat_natCast] at hb
  generalize hA : unsignedAt index ((w + 7) / 8 * i * 8) w = A at hb
  generalize hB : unsignedAt index ((w + 7) / 8 * (i + 1) * 8) w = B at hb
  split at hb
  · cases hb
  cases hb
  rename_i hc
  -- Python
  have hoff : ∀ j, j ≤ len → Multivector.bucketOffset
      ⟨⟨toLE 8 index.length ++ index ++ tail, indexType ns w, len + 1⟩, toLE 8 data.length ++ data ++ tail', ts⟩ j =
      .ok (unsignedAt index ((w + 7) / 8 * j * 8) w + 8) := by
    intro j hj
    have hget : FdVector.get ⟨toLE 8 index.length ++ index ++ tail, indexType ns w, len + 1⟩ j =
        .ok (StructView.mk (indexType ns w) (toLE 8 index.length ++ index ++ tail) (8 + (w + 7) / 8 * j)) := by
      unfold FdVector.get
      have h0 : ¬ ((j : Int) < 0) := by omega
      simp only [h0, if_false, bind, Except.bind, pure, Except.pure]
      rw [if_neg (by push_cast; simp only [h0, or_false]; omega)]
      simp [getItem, hsz]
    have hp := hplace j hj
    unfold Multivector.bucketOffset
    rw [bind_ok_iff]
    refine ⟨_, hget, ?_⟩
    rw [bind_ok_iff]
    refine ⟨(unsignedAt index ((w + 7) / 8 * j * 8) w : Int), ?_, ?_⟩
    · have hlk : (indexType ns w).fields.lookup "value" = some ⟨0, w, false⟩ := by
        simp [indexType, mkStruct, layoutFrom, List.lookup]
      rw [StructView.getAttr, hlk]
      simp only [StructView.getValue]
      rw [C01_read_value _ _ _ _ hw hw' (by simp only [List.length_append, hh]; omega), if_neg (by simp), if_neg (by simp only [not_and]; omega),
        fieldValue, if_neg (by simp)]
      rw [show (8 + (w + 7) / 8 * j) * 8 + 0 = (toLE 8 index.length).length * 8 + (w + 7) / 8 * j * 8 by rw [hh]; ring, unsignedAt_inside hp]
    · rfl
  obtain ⟨views, hv, hvv⟩ := python_elements data tail' ts B (by omega) (toLE 8 data.length) fuel A items (by omega) hit (B - A) le_rfl
  rw [hh'] at hv
  refine ⟨views, ?_, hvv⟩
  unfold Multivector.get
  rw [bind_ok_iff]
  refine ⟨_, hoff i (by omega), ?_⟩
  rw [bind_ok_iff]
  refine ⟨_, by exact_mod_cast hoff (i + 1) (by omega), ?_⟩
  rw [hA, hB, show B + 8 - (A + 8) = B - A by omega]
  exact hv

end Props
