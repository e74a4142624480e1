import Verif.Props.Native.CppReader
import Verif.Props.Native.CppVector

/-!
# C80: files written by one runtime and read by another
-/

namespace Props
open Py Spec Model Model.Native _root_.Native

theorem newFiles_has {f f' : Files} {files : List (String × Bytes)} (h : NewFiles f f' files) (hn : (files.map (·.1)).Nodup) :
    HasFiles f' files := by
  intro p hp
  rw [h p.1, lookup_of_mem_nodup hn hp]

/-! ## Python reading the documented files -/

/-- **C80 (Python reads the documented vector file).** -/
theorem C80_python_reads_vector (sname : String) (fs : List FieldDecl) (hg : GoodStruct fs) (hfs : fs ≠ []) (ds : List Dict)
    (hd : ∀ d ∈ ds, DictFits fs d) (hlen : ((fs.map (·.width)).sum + 7) / 8 * ds.length < 2 ^ 63) :
    ∃ v, FdVector.create (frame (vectorBytes fs ds)) (mkStruct sname fs) = .ok v ∧ v.len = .ok ds.length ∧
      ∀ (i : Nat) d, ds[i]? = some d → ∃ x, v.get (i : Int) = .ok x ∧ ReadsAs x fs d := by
  have hA : (ArchiveType.mk "A" "" [("r", .vector (mkStruct sname fs) "" false)]).resources.lookup "r" =
      some (.vector (mkStruct sname fs) "" false) := by simp [List.lookup]
  have hlen' : (mkStruct sname fs).sizeInBytes * ds.length < 2 ^ 63 := by rw [mkStruct_size]; exact hlen
  obtain ⟨s', mem, v, e1, h1, h2, h3, h4⟩ := C12_vector_roundtrip _ "p" "r" sname "" false fs ds ⟨[], [], []⟩ (fun _ => none) hA
    (by decide) (by decide) (by simp) hg hfs hd hlen'
  obtain ⟨s'', e2, hl⟩ := C77_vector_files _ "p" "r" sname "" false fs ds ⟨[], [], []⟩ (fun _ => none) hA
    (by decide) (by decide) (by simp) hg hd (by omega)
  rw [e1] at e2
  have : s' = s'' := by cases e2; rfl
  subst this
  have hr := hl "r"
  simp only [List.lookup, beq_self_eq_true] at hr
  rw [h1] at hr
  cases hr
  exact ⟨v, h2, h3, h4⟩

/-- **C80 (Python reads the documented file of a single structure).** -/
theorem C80_python_reads_instance (sname : String) (fs : List FieldDecl) (hg : GoodStruct fs) (d : Dict) (hd : DictFits fs d)
    (hlen : ((fs.map (·.width)).sum + 7) / 8 < 2 ^ 64) :
    ∃ x e, Instance.create (frame (structBytes fs d)) (mkStruct sname fs) = .ok x ∧ x.get 0 = .ok e ∧ ReadsAs e fs d ∧
      ∀ n, x.getAttr n = e.getAttr n := by
  have hA : (ArchiveType.mk "A" "" [("r", .instance (mkStruct sname fs) "" false)]).resources.lookup "r" =
      some (.instance (mkStruct sname fs) "" false) := by simp [List.lookup]
  have hlen' : (mkStruct sname fs).sizeInBytes < 2 ^ 64 := by rw [mkStruct_size]; exact hlen
  obtain ⟨s', mem, x, e1, h1, h2, h3, ⟨e, h4, h5, h6, h7, h8⟩, h9⟩ := C13_instance_roundtrip _ "p" "r" sname "" false fs d ⟨[], [], []⟩
    (fun _ => none) hA (by decide) (by decide) (by simp) hg hd hlen'
  obtain ⟨s'', e2, hl⟩ := C77_instance_files _ "p" "r" sname "" false fs d ⟨[], [], []⟩ (fun _ => none) hA
    (by decide) (by decide) (by simp) hg hd hlen'
  rw [e1] at e2
  have : s' = s'' := by cases e2; rfl
  subst this
  have hr := hl "r"
  simp only [List.lookup, beq_self_eq_true] at hr
  rw [h1] at hr
  cases hr
  exact ⟨x, e, h2, h4, h7, h8⟩

theorem bucketsSize_eq {decls : List (String × List FieldDecl)} (hd : GoodDecls decls) (value : List (List Obj))
    (hv : ∀ b ∈ value, ∀ o ∈ b, ∃ fs, (o.name, fs) ∈ decls) : bucketsSize decls value = (bucketsBytes decls value).length := by
  simp only [bucketsSize, bucketsBytes, List.length_flatten, List.map_map]
  congr 1
  apply List.map_congr_left
  intro b hb
  simp only [Function.comp_apply, bucketBytes, List.length_flatten, List.map_map]
  congr 1
  apply List.map_congr_left
  intro o ho
  obtain ⟨fs, hm⟩ := hv b hb o ho
  simp [objSize, elementBytes, lookup_of_mem hd.names hm, structBytes_length]; omega

/-- **C80 (Python reads the documented multivector files).** -/
theorem C80_python_reads_multivector (ns : String) (W : Nat) (hW : 1 ≤ W) (hW' : W ≤ 64) (decls : List (String × List FieldDecl))
    (hd : GoodDecls decls) (value : List (List Obj)) (hv : BucketsFit decls value)
    (hsize : (bucketsBytes decls value).length < 2 ^ W) (hlen : (W + 7) / 8 * (value.length + 1) < 2 ^ 63) :
    ∃ mv, Multivector.create (frame (indexBytes W decls value)) (frame (bucketsBytes decls value)) (indexType ns W) (classes decls) = .ok mv ∧
      mv.len = .ok value.length ∧
      ∀ (i : Nat) bucket, value[i]? = some bucket →
        ∃ xs, mv.get (i : Int) = .ok xs ∧ List.Forall₂ (ElemReads decls) xs bucket := by
  have hA : (ArchiveType.mk "A" "" [("r", .multivector (indexType ns W) (classes decls) "" false)]).resources.lookup "r" =
      some (.multivector (indexType ns W) (classes decls) "" false) := by simp [List.lookup]
  have hv' : ∀ b ∈ value, ∀ o ∈ b, ∃ fs, (o.name, fs) ∈ decls := by
    intro b hb o ho
    obtain ⟨fs, hm, -⟩ := hv b hb o ho
    exact ⟨fs, hm⟩
  have hp1 : 2 ^ W ≤ 2 ^ (8 * ((W + 7) / 8)) := Nat.pow_le_pow_right (by omega) (by omega)
  have hp2 : 2 ^ W ≤ 2 ^ 64 := Nat.pow_le_pow_right (by omega) hW'
  obtain ⟨s', im, mem, mv, e1, h1, h2, h3, h4, h5⟩ := C14_multivector_roundtrip _ "p" "r" "" false W decls value ⟨[], [], []⟩
    (fun _ => none) hA (by decide) (by decide) (by simp) hW hW' hd hv (by rw [bucketsSize_eq hd value hv']; exact hsize) hlen
  obtain ⟨s'', e2, hl⟩ := C77_multivector_files _ "p" "r" "" false W decls value ⟨[], [], []⟩
    (fun _ => none) hA (by decide) (by decide) (by simp) hW hd hv (by omega) (by omega) (by omega)
  rw [e1] at e2
  have : s' = s'' := by cases e2; rfl
  subst this
  have hr := hl "r"
  simp only [List.lookup, beq_self_eq_true] at hr
  rw [h1] at hr
  cases hr
  have hi := hl ("r" ++ "_index")
  have b1 : ("r" ++ "_index" == "r") = false := by decide
  have b2 : ("r" ++ "_index" == "r" ++ ".schema") = false := by decide
  simp only [List.lookup, b1, b2] at hi
  simp only [beq_self_eq_true] at hi
  rw [h2] at hi
  cases hi
  exact ⟨mv, h3, h4, h5⟩

theorem name_ne_append (name x : String) (hx : x ≠ "") : name ≠ name ++ x := fun h => by
  have := congrArg String.length h
  simp at this
  exact hx this

theorem pair_names_nodup (name : String) (a b : Bytes) :
    (([(name, a), (name ++ ".schema", b)] : List (String × Bytes)).map (·.1)).Nodup := by
  simp only [List.map_cons, List.map_nil, List.nodup_cons, List.mem_singleton, List.not_mem_nil, not_false_eq_true, List.nodup_nil,
    and_true]
  exact name_ne_append name _ (by decide)

/-! ## From C++ to Python -/

/-- **C80, a vector written in C++ and read in Python.** -/
theorem C80_cpp_to_python_vector (limit : Nat) (f : Files) (name schema sname : String) (ty : String → CppType) (fs : List FieldDecl)
    (hg : GoodStruct fs) (hfs : fs ≠ []) (elems : List (List (String × Int))) (hc : ∀ calls ∈ elems, ∀ c ∈ calls, CppCall ty fs c)
    (hlen : ((fs.map (·.width)).sum + 7) / 8 * elems.length < 2 ^ 63) :
    ∃ f' mem v, cppExternalVector limit f name schema (((fs.map (·.width)).sum + 7) / 8) (elems.map (cppAssign ty fs)) = some f' ∧
      f' name = some mem ∧ f' (name ++ ".schema") = some (encodeUtf8 schema) ∧
      FdVector.create mem (mkStruct sname fs) = .ok v ∧ v.len = .ok elems.length ∧
      ∀ (i : Nat) calls, elems[i]? = some calls → ∃ x, v.get (i : Int) = .ok x ∧ ReadsAs x fs (finalValues fs calls) := by
  obtain ⟨f', e, hn⟩ := C78_cpp_vector_files limit f name schema ty fs hg elems hc (by omega)
  have hh := newFiles_has hn (pair_names_nodup _ _ _)
  obtain ⟨v, h1, h2, h3⟩ := C80_python_reads_vector sname fs hg hfs (elems.map (finalValues fs))
    (fun d hd => by obtain ⟨c, -, rfl⟩ := List.mem_map.mp hd; exact finalValues_fits hg.names c) (by simpa using hlen)
  refine ⟨f', _, v, e, hh (name, _) List.mem_cons_self, hh (name ++ ".schema", _) (List.mem_cons_of_mem _ List.mem_cons_self), h1,
    by simpa using h2, ?_⟩
  intro i calls hi
  exact h3 i _ (by rw [List.getElem?_map, hi]; rfl)

theorem finalObj_fit {decls : List (String × List FieldDecl)} (hd : GoodDecls decls) {ty : String → String → CppType}
    {buckets : List (List (String × List (String × Int)))}
    (hc : ∀ b ∈ buckets, ∀ e ∈ b, ∃ fs, (e.1, fs) ∈ decls ∧ ∀ c ∈ e.2, CppCall (ty e.1) fs c) :
    BucketsFit decls (buckets.map fun b => b.map (finalObj decls)) := by
  intro b hb o ho
  obtain ⟨b', hb', rfl⟩ := List.mem_map.mp hb
  obtain ⟨e, he, rfl⟩ := List.mem_map.mp ho
  obtain ⟨fs, hm, -⟩ := hc b' hb' e he
  refine ⟨fs, hm, ?_⟩
  simp only [finalObj, lookup_of_mem hd.names hm, Option.getD_some]
  exact finalValues_fits (hd.good _ hm).names _

theorem multi_names_nodup (name : String) (a b c d : Bytes) :
    (([(name, a), (name ++ ".schema", b), (name ++ "_index", c), (name ++ "_index.schema", d)] : List (String × Bytes)).map (·.1)).Nodup := by
  simp
  exact ⟨name_ne_append name _ (by decide), name_ne_append name _ (by decide), name_ne_append name _ (by decide)⟩

/-- **C80, a multivector written in C++ and read in Python.** -/
theorem C80_cpp_to_python_multivector (limit : Nat) (f : Files) (name schema ns : String) (w : Nat) (hw : 1 ≤ w) (hw' : w ≤ 64)
    (decls : List (String × List FieldDecl)) (hd : GoodDecls decls) (ty : String → String → CppType)
    (buckets : List (List (String × List (String × Int))))
    (hc : ∀ b ∈ buckets, ∀ e ∈ b, ∃ fs, (e.1, fs) ∈ decls ∧ ∀ c ∈ e.2, CppCall (ty e.1) fs c)
    (hsize : (bucketsBytes decls (buckets.map fun b => b.map (finalObj decls))).length < 2 ^ w)
    (hlen : (w + 7) / 8 * (buckets.length + 1) < 2 ^ 63) :
    ∃ f' mem indexMem mv, cppMultiVector limit f name schema w (buckets.map fun b => b.map (cppElement decls ty)) = some f' ∧
      f' name = some mem ∧ f' (name ++ ".schema") = some (encodeUtf8 schema) ∧ f' (name ++ "_index") = some indexMem ∧
      Multivector.create indexMem mem (indexType ns w) (classes decls) = .ok mv ∧ mv.len = .ok buckets.length ∧
      ∀ (i : Nat) bucket, buckets[i]? = some bucket →
        ∃ xs, mv.get (i : Int) = .ok xs ∧ List.Forall₂ (ElemReads decls) xs (bucket.map (finalObj decls)) := by
  obtain ⟨f', e, hn⟩ := C78_cpp_multivector_files limit f name schema w hw hw' decls hd ty buckets hc hsize (by omega)
  have hh := newFiles_has hn (multi_names_nodup _ _ _ _ _)
  obtain ⟨mv, h1, h2, h3⟩ := C80_python_reads_multivector ns w hw hw' decls hd (buckets.map fun b => b.map (finalObj decls))
    (finalObj_fit hd hc) hsize (by simpa using hlen)
  refine ⟨f', _, _, mv, e, hh (name, _) List.mem_cons_self, hh (name ++ ".schema", _) (List.mem_cons_of_mem _ List.mem_cons_self),
    hh (name ++ "_index", _) (List.mem_cons_of_mem _ (List.mem_cons_of_mem _ List.mem_cons_self)), h1, by simpa using h2, ?_⟩
  intro i bucket hi
  exact h3 i _ (by rw [List.getElem?_map, hi]; rfl)

/-! ## From Python to C++ -/

/-- **C80, a vector written in Python and read in C++.** -/
theorem C80_python_to_cpp_vector (A : ArchiveType) (path name sname schema : String) (opt : Bool) (fs : List FieldDecl) (ds : List Dict)
    (s : BState) (f : Files) (hA : A.resources.lookup name = some (.vector (mkStruct sname fs) schema opt))
    (hpath : path ≠ "") (hname : name ≠ "") (hnew : name ∉ s.written) (hg : GoodStruct fs) (hfs : fs ≠ [])
    (hd : ∀ d ∈ ds, DictFits fs d) (hlen : ((fs.map (·.width)).sum + 7) / 8 * ds.length + 16 < 2 ^ 64)
    (hs : encodeUtf8 schema ≠ []) (ty : String → CppType) (ht : CppTypes ty fs) (overlapping : Bool) :
    ∃ s' v, setResource A path name (.list ds) s = (.ok (), s') ∧
      cppOpenVector overlapping (filesOfState f s') name schema (((fs.map (·.width)).sum + 7) / 8) = some v ∧
      v.size = (if overlapping then ds.length - 1 else ds.length) ∧
      ∀ i (hi : i < ds.length), CppShows ty fs (v.at (((fs.map (·.width)).sum + 7) / 8) i) ds[i] := by
  obtain ⟨s', e, hl⟩ := C77_vector_files A path name sname schema opt fs ds s f hA hpath hname hnew hg hd (by rw [mkStruct_size]; omega)
  obtain ⟨v, h1, h2, h3⟩ := C79_cpp_vector ty fs hg hfs ht overlapping (filesOfState f s') name schema hs ds hlen (newFiles_has hl (pair_names_nodup _ _ _))
  exact ⟨s', v, e, h1, h2, h3⟩

/-- **C80, a multivector written in Python and read in C++.** -/
theorem C80_python_to_cpp_multivector (A : ArchiveType) (path name schema ns : String) (opt : Bool) (W : Nat)
    (decls : List (String × List FieldDecl)) (value : List (List Obj)) (s : BState) (f : Files)
    (hA : A.resources.lookup name = some (.multivector (indexType ns W) (classes decls) schema opt))
    (hpath : path ≠ "") (hname : name ≠ "") (hnew : name ∉ s.written) (hW : 1 ≤ W) (hW' : W ≤ 64)
    (hd : GoodDecls decls) (hv : BucketsFit decls value)
    (hsize : (bucketsBytes decls value).length < 2 ^ W) (hsize' : (bucketsBytes decls value).length + 16 < 2 ^ 64)
    (hlen : (W + 7) / 8 * (value.length + 1) + 16 < 2 ^ 64) (hs : encodeUtf8 schema ≠ [])
    (ty : String → String → CppType) (ht : ∀ p ∈ decls, CppTypes (ty p.1) p.2) :
    ∃ s' m, setResource A path name (.buckets value) s = (.ok (), s') ∧
      cppOpenMulti (filesOfState f s') name schema W = some m ∧ m.index.size = value.length ∧
      ∀ i (hi : i < value.length), ∃ l, m.forEach W (declSizes decls) i = some l ∧ List.Forall₂ (CppShowsObj ty decls) l value[i] := by
  have hv' : ∀ b ∈ value, ∀ o ∈ b, ∃ fs, (o.name, fs) ∈ decls := by
    intro b hb o ho
    obtain ⟨fs, hm, -⟩ := hv b hb o ho
    exact ⟨fs, hm⟩
  have hp1 : 2 ^ W ≤ 2 ^ (8 * ((W + 7) / 8)) := Nat.pow_le_pow_right (by omega) (by omega)
  obtain ⟨s', e, hl⟩ := C77_multivector_files A path name schema opt W decls value s f hA hpath hname hnew hW hd hv (by omega) (by omega)
    (by omega)
  obtain ⟨m, h1, h2, h3⟩ := C79_cpp_multivector W hW hW' decls hd ty ht (filesOfState f s') name schema hs value hv' hsize hsize' hlen
    (newFiles_has hl (multi_names_nodup _ _ _ _ _))
  exact ⟨s', m, e, h1, h2, fun i hi => (h3 i hi).1⟩

/-! ## The same files -/

/-- **C80, the same files.** For the same values the C++ builder and the Python builder leave a directory in the same state, byte for
byte. -/
theorem C80_same_files_vector (A : ArchiveType) (path name sname schema : String) (opt : Bool) (fs : List FieldDecl)
    (s : BState) (f : Files) (hA : A.resources.lookup name = some (.vector (mkStruct sname fs) schema opt))
    (hpath : path ≠ "") (hname : name ≠ "") (hnew : name ∉ s.written) (hg : GoodStruct fs) (limit : Nat) (ty : String → CppType)
    (elems : List (List (String × Int))) (hc : ∀ calls ∈ elems, ∀ c ∈ calls, CppCall ty fs c)
    (hlen : ((fs.map (·.width)).sum + 7) / 8 * elems.length < 2 ^ 64) :
    ∃ s', setResource A path name (.list (elems.map (finalValues fs))) s = (.ok (), s') ∧
      cppExternalVector limit (filesOfState f s) name schema (((fs.map (·.width)).sum + 7) / 8) (elems.map (cppAssign ty fs)) =
        some (filesOfState f s') := by
  obtain ⟨s', e, hl⟩ := C77_vector_files A path name sname schema opt fs (elems.map (finalValues fs)) s f hA hpath hname hnew hg
    (fun d hd => by obtain ⟨c, -, rfl⟩ := List.mem_map.mp hd; exact finalValues_fits hg.names c)
    (by rw [mkStruct_size]; simpa using hlen)
  obtain ⟨f', e', hn⟩ := C78_cpp_vector_files limit (filesOfState f s) name schema ty fs hg elems hc hlen
  refine ⟨s', e, ?_⟩
  rw [e']
  congr 1
  funext n
  rw [hn n, hl n]

/-- **C80, the same files,** for multivectors. -/
theorem C80_same_files_multivector (A : ArchiveType) (path name schema ns : String) (opt : Bool) (w : Nat) (hw : 1 ≤ w) (hw' : w ≤ 64)
    (decls : List (String × List FieldDecl)) (s : BState) (f : Files)
    (hA : A.resources.lookup name = some (.multivector (indexType ns w) (classes decls) schema opt))
    (hpath : path ≠ "") (hname : name ≠ "") (hnew : name ∉ s.written) (hd : GoodDecls decls) (limit : Nat)
    (ty : String → String → CppType) (buckets : List (List (String × List (String × Int))))
    (hc : ∀ b ∈ buckets, ∀ e ∈ b, ∃ fs, (e.1, fs) ∈ decls ∧ ∀ c ∈ e.2, CppCall (ty e.1) fs c)
    (hsize : (bucketsBytes decls (buckets.map fun b => b.map (finalObj decls))).length < 2 ^ w)
    (hlen : (w + 7) / 8 * (buckets.length + 1) < 2 ^ 64) :
    ∃ s', setResource A path name (.buckets (buckets.map fun b => b.map (finalObj decls))) s = (.ok (), s') ∧
      cppMultiVector limit (filesOfState f s) name schema w (buckets.map fun b => b.map (cppElement decls ty)) =
        some (filesOfState f s') := by
  have hp1 : 2 ^ w ≤ 2 ^ (8 * ((w + 7) / 8)) := Nat.pow_le_pow_right (by omega) (by omega)
  have hp2 : 2 ^ w ≤ 2 ^ 64 := Nat.pow_le_pow_right (by omega) hw'
  obtain ⟨s', e, hl⟩ := C77_multivector_files A path name schema opt w decls (buckets.map fun b => b.map (finalObj decls)) s f hA hpath
    hname hnew hw hd (finalObj_fit hd hc) (by omega) (by omega) (by simpa using hlen)
  obtain ⟨f', e', hn⟩ := C78_cpp_multivector_files limit (filesOfState f s) name schema w hw hw' decls hd ty buckets hc hsize hlen
  refine ⟨s', e, ?_⟩
  rw [e']
  congr 1
  funext n
  rw [hn n, hl n]

/-! ## The hypotheses are met -/

/-- the C++ members of the sample -/
def sampleTy : String → CppType := fun n => if n = "x" then .int 16 false else .int 8 true
/-- a 12-bit unsigned field followed by a signed 4-bit field -/
def sampleFields : List FieldDecl := [⟨"x", 12, false⟩, ⟨"y", 4, true⟩]
/-- three elements: the second one is set twice, the third one not at all -/
def sampleElems : List (List (String × Int)) := [[("x", 300), ("y", -2)], [("x", 4095), ("y", 7), ("x", 1)], []]

theorem sample_calls : ∀ calls ∈ sampleElems, ∀ c ∈ calls, CppCall sampleTy sampleFields c := by
  have hx : ∀ v : Int, 0 ≤ v → v < 4096 → CppCall sampleTy sampleFields ("x", v) := fun v h0 h1 =>
    ⟨⟨"x", 12, false⟩, by simp [sampleFields], rfl, ⟨by simp [sampleTy, CppType.isSigned, InRange]; omega, by intro _; exact h0⟩, by simp⟩
  have hy : ∀ v : Int, -8 ≤ v → v < 8 → CppCall sampleTy sampleFields ("y", v) := fun v h0 h1 =>
    ⟨⟨"y", 4, true⟩, by simp [sampleFields], rfl, ⟨by simp [sampleTy, CppType.isSigned, InRange]; omega, by simp [sampleTy, CppType.stdIsSigned]⟩, by simp⟩
  intro calls hc c h
  simp only [sampleElems, List.mem_cons, List.not_mem_nil, or_false] at hc
  rcases hc with rfl | rfl | rfl <;> simp only [List.mem_cons, List.not_mem_nil, or_false] at h
  · rcases h with rfl | rfl
    · exact hx _ (by decide) (by decide)
    · exact hy _ (by decide) (by decide)
  · rcases h with rfl | rfl | rfl
    · exact hx _ (by decide) (by decide)
    · exact hy _ (by decide) (by decide)
    · exact hx _ (by decide) (by decide)

example : GoodStruct sampleFields ∧ sampleFields ≠ [] ∧ CppTypes sampleTy sampleFields ∧
    (∀ calls ∈ sampleElems, DictFits sampleFields (finalValues sampleFields calls)) := by
  have hg : GoodStruct sampleFields := ⟨by simp [GoodWidths, sampleFields], by simp [sampleFields]⟩
  refine ⟨hg, by simp [sampleFields], ?_, fun c _ => finalValues_fits hg.names c⟩
  intro f hf
  simp only [sampleFields, List.mem_cons, List.not_mem_nil, or_false] at hf
  rcases hf with rfl | rfl <;> simp [sampleTy, CppHolds, CppType.isSigned]

/-- The files the C++ builder leaves for the sample (with a flush after every four bytes), and what the C++ and the Python reader show
for them. -/
example : ((cppExternalVector 4 (fun _ => none) "v" "S" 2 (sampleElems.map (cppAssign sampleTy sampleFields))).bind fun f =>
    (cppOpenVector false f "v" "S" 2).map fun v => (f "v", v.size,
      [0, 1, 2].map fun i => (cppGet sampleTy sampleFields (v.at 2 i) "x", cppGet sampleTy sampleFields (v.at 2 i) "y"))) =
    some (some [6, 0, 0, 0, 0, 0, 0, 0, 44, 225, 1, 112, 0, 0, 0, 0, 0, 0, 0, 0, 0, 0], 3,
      [(some 300, some (-2)), (some 1, some 7), (some 0, some 0)]) := by decide +kernel

/-- two element types -/
def sampleDecls : List (String × List FieldDecl) := [("A", [⟨"x", 8, false⟩]), ("B", [⟨"y", 16, true⟩])]
/-- three buckets: the second one is empty, the third one mixes the types -/
def sampleFiles : Option Files := cppMultiVector 0 (fun _ => none) "m" "M" 8
  ([[("A", [("x", 7)])], [], [("B", [("y", -2)]), ("A", [])]].map fun b =>
    b.map (cppElement sampleDecls fun n _ => if n = "A" then .int 8 false else .int 16 true))

/-- A multivector with two types written in C++: the files. -/
example : (sampleFiles.bind (· "m")) = some [7, 0, 0, 0, 0, 0, 0, 0, 0, 7, 1, 254, 255, 0, 0, 0, 0, 0, 0, 0, 0, 0, 0] ∧
    (sampleFiles.bind (· "m_index")) = some [4, 0, 0, 0, 0, 0, 0, 0, 0, 2, 2, 7, 0, 0, 0, 0, 0, 0, 0, 0] ∧
    (sampleFiles.bind (· "m_index.schema")) = some (encodeUtf8 "index(M)") := by decide +kernel
/-- ... and what C++ reads from them. -/
example : (sampleFiles.bind fun f => (cppOpenMulti f "m" "M" 8).map fun m =>
      [0, 1, 2].map fun i => (m.forEach 8 (declSizes sampleDecls) i).map fun l => l.map (·.1)) =
    some [some [0], some [], some [1, 0]] := by decide +kernel

end Props
