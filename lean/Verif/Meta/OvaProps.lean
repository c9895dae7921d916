import Verif.Meta.OvaModel

/-!
C288: the archive for virtual machines has the current disk, after its description, with correct checksums.
-/

namespace Isar.Meta.Ova

open Py

namespace Spec

/-- the members of a correct archive: the description is first, as the format OVF wants it, the disk is last -/
def archive (withManifest : Bool) (name ovf mf disk : Str) : List (Str × Str) :=
  [(name ++ ['.', 'o', 'v', 'f'], ovf)] ++ (if withManifest then [(name ++ ['.', 'm', 'f'], mf)] else []) ++ [(name ++ "-disk001.vmdk".toList, disk)]

/-- a line with the checksum of a file -/
def line (alg name sum : Str) : Str := "SHA".toList ++ alg ++ "(".toList ++ name ++ ")=".toList ++ sum ++ "\n".toList

/-- a manifest with the checksums of the two files -/
def manifest (alg name diskSum ovfSum : Str) : Str := line alg (name ++ "-disk001.vmdk".toList) diskSum ++ line alg (name ++ ".ovf".toList) ovfSum

end Spec

theorem put_same {α : Type} (fs : Str → Option α) (n : Str) (v : Option α) : put fs n v n = v := if_pos rfl

theorem put_ne {α : Type} (fs : Str → Option α) {n m : Str} (v : Option α) (h : m ≠ n) : put fs n v m = fs m := if_neg h

theorem diskName_vmdk {c : Conf} (h : c.imageType = vmdk) : diskName c = c.fullname ++ ['-', 'd', 'i', 's', 'k', '0', '0', '1', '.', 'v', 'm', 'd', 'k'] := by
  unfold diskName
  rw [h, List.append_assoc]
  rfl

theorem disk_ne_ovf {c : Conf} (h : c.imageType = vmdk) : diskName c ≠ ovfName c := by
  rw [diskName_vmdk h]
  intro e
  exact absurd (List.append_cancel_left e) (by decide)

theorem disk_ne_mf {c : Conf} (h : c.imageType = vmdk) : diskName c ≠ mfName c := by
  rw [diskName_vmdk h]
  intro e
  exact absurd (List.append_cancel_left e) (by decide)

theorem mf_ne_ovf (c : Conf) : mfName c ≠ ovfName c := by
  intro e
  exact absurd (List.append_cancel_left e) (by decide)

theorem tarAdd_archive {d : Deploy} {a n : Str} {ms : List (Str × Str)} {x : Str} (ha : d.archives a = some ms) (hn : d.files n = some x) :
    (tarAdd d a n).archives a = some (ms ++ [(n, x)]) ∧ (tarAdd d a n).files = d.files := by
  unfold tarAdd
  rw [ha, hn]
  exact ⟨put_same .., rfl⟩

/-- **C288**: whatever is left from earlier builds, the archive has the description, then the manifest where the format is the one of VirtualBox, then the disk made from the current image; the manifest has the checksums of
these two files and nothing else.  Missing: other types of images, for which there is no archive (`other_types`). -/
theorem archive_partial (t : Tools) (c : Conf) (raw : Str) (d : Deploy) (h : c.imageType = "vmdk".toList) :
    let disk := t.convert "vmdk".toList ("-o subformat=".toList ++ c.subformat) raw
    (doImageOva t c raw d).archives (c.fullname ++ ".ova".toList) =
      some (Spec.archive (decide (c.subformat = "monolithicSparse".toList)) c.fullname (t.ovf disk) (Spec.manifest c.shaAlg c.fullname (t.sum disk) (t.sum (t.ovf disk))) disk) ∧
    (doImageOva t c raw d).files (c.fullname ++ "-disk001.vmdk".toList) = some disk := by
  have hv : c.imageType = vmdk := h
  have hdn : c.fullname ++ "-disk001.vmdk".toList = diskName c := (diskName_vmdk hv).symm
  intro disk
  have hdisk : disk = t.convert c.imageType (convertOptions c) raw := by
    unfold convertOptions
    rw [if_pos hv, hv]
    rfl
  rw [hdn, show c.fullname ++ ".ova".toList = ovaName c from rfl]
  unfold doImageOva imageCmd
  rw [if_neg (fun hn => hn hv)]
  dsimp only
  have hget : (put (put (convertWic t c raw d).files (ovfName c) none) (mfName c) none) (diskName c) = some disk := by
    rw [put_ne _ _ (disk_ne_mf hv), put_ne _ _ (disk_ne_ovf hv), hdisk]
    exact put_same ..
  have hmf : (put (put (put (convertWic t c raw d).files (ovfName c) none) (mfName c) none) (ovfName c) (some (t.ovf disk))) (mfName c) = none := by
    rw [put_ne _ _ (mf_ne_ovf c), put_same]
  rw [hget, Option.getD_some]
  have hget' : (put (put (put (convertWic t c raw d).files (ovfName c) none) (mfName c) none) (ovfName c) (some (t.ovf disk))) (diskName c) = some disk := by
    rw [put_ne _ _ (disk_ne_ovf hv), hget]
  generalize put (put (put (convertWic t c raw d).files (ovfName c) none) (mfName c) none) (ovfName c) (some (t.ovf disk)) = fs at *
  generalize hA : put (put (convertWic t c raw d).archives (ovaName c) none) (ovaName c) (some [(ovfName c, t.ovf disk)]) = ar
  have har : ar (ovaName c) = some [(ovfName c, t.ovf disk)] := by rw [← hA]; exact put_same ..
  by_cases hm : c.subformat = monolithicSparse
  · rw [if_pos hm]
    have hm' : decide (c.subformat = "monolithicSparse".toList) = true := decide_eq_true hm
    rw [hm']
    generalize hF : appendTo (appendTo fs (mfName c) (mfLine t c (diskName c) disk)) (mfName c) (mfLine t c (ovfName c) (t.ovf disk)) = fs'
    have h1 : fs' (mfName c) = some (mfLine t c (diskName c) disk ++ mfLine t c (ovfName c) (t.ovf disk)) := by
      rw [← hF]
      unfold appendTo
      rw [put_same, put_same, hmf]
      rfl
    have h2 : fs' (diskName c) = some disk := by
      rw [← hF]
      unfold appendTo
      rw [put_ne _ _ (disk_ne_mf hv), put_ne _ _ (disk_ne_mf hv), hget']
    obtain ⟨ha, hf⟩ := tarAdd_archive (d := ⟨fs', ar⟩) (n := mfName c) har h1
    obtain ⟨ha', hf'⟩ := tarAdd_archive (n := diskName c) ha (by rw [hf]; exact h2)
    refine ⟨?_, by rw [hf', hf]; exact h2⟩
    rw [ha', diskName_vmdk hv]
    rfl
  · rw [if_neg hm]
    have hm' : decide (c.subformat = "monolithicSparse".toList) = false := decide_eq_false hm
    rw [hm']
    obtain ⟨ha', hf'⟩ := tarAdd_archive (d := ⟨fs, ar⟩) (n := diskName c) har hget'
    refine ⟨?_, by rw [hf']; exact hget'⟩
    rw [ha', diskName_vmdk hv]
    rfl

/-- **C288 is false of the code** for other types of images: the task succeeds without making an archive, and an archive of an earlier build stays as it is, next to the new disk. -/
theorem other_types (t : Tools) (c : Conf) (raw : Str) (d : Deploy) (h : c.imageType ≠ "vmdk".toList) :
    (doImageOva t c raw d).archives = d.archives ∧ (doImageOva t c raw d).files (c.fullname ++ "-disk001.".toList ++ c.imageType) = some (t.convert c.imageType [] raw) := by
  have hv : c.imageType ≠ vmdk := h
  unfold doImageOva imageCmd
  rw [if_pos hv]
  refine ⟨rfl, ?_⟩
  have : convertOptions c = [] := if_neg hv
  rw [← this]
  exact put_same ..

/-- programs for the examples -/
def sampleTools : Tools := ⟨fun _ o r => o ++ ['|'] ++ r, fun d => 'x' :: d, fun s => s.take 1⟩

/-- a directory with leftovers -/
def sampleDeploy : Deploy := ⟨fun _ => some ['o'], fun _ => some [(['o'], ['o'])]⟩

example : (doImageOva sampleTools ⟨['n'], "vmdk".toList, "monolithicSparse".toList, ['1']⟩ ['r'] sampleDeploy).archives ['n', '.', 'o', 'v', 'a'] =
    some [("n.ovf".toList, "x-o subformat=monolithicSparse|r".toList), ("n.mf".toList, "SHA1(n-disk001.vmdk)=-\nSHA1(n.ovf)=x\n".toList), ("n-disk001.vmdk".toList, "-o subformat=monolithicSparse|r".toList)] := by decide +kernel

example : (doImageOva sampleTools ⟨['n'], "vdi".toList, "monolithicSparse".toList, ['1']⟩ ['r'] sampleDeploy).archives ['n', '.', 'o', 'v', 'a'] = some [(['o'], ['o'])] := by decide +kernel

end Isar.Meta.Ova
