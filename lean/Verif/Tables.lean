import Verif.Pattern

/-!
# The bundled step patterns

GENERATED by tools/gen_patterns.py from the text of /repo/dtw/stepPattern.py (lines 557-990): the rows are
the literals of the source, in order; a weight such as `1 / 3` is the rational number, rounded to a double
where the kernel uses it.
-/

namespace DTW
namespace Pat

/-- stepPattern.py:562-569 -/
def symmetric1 : StepPattern where
  mx := [
   ⟨1, 1, 1, -1⟩,
   ⟨1, 0, 0, 1⟩,
   ⟨2, 0, 1, -1⟩,
   ⟨2, 0, 0, 1⟩,
   ⟨3, 1, 0, -1⟩,
   ⟨3, 0, 0, 1⟩]
  hint := "NA"

/-- stepPattern.py:573-580 -/
def symmetric2 : StepPattern where
  mx := [
   ⟨1, 1, 1, -1⟩,
   ⟨1, 0, 0, 2⟩,
   ⟨2, 0, 1, -1⟩,
   ⟨2, 0, 0, 1⟩,
   ⟨3, 1, 0, -1⟩,
   ⟨3, 0, 0, 1⟩]
  hint := "N+M"

/-- stepPattern.py:584-591 -/
def asymmetric : StepPattern where
  mx := [
   ⟨1, 1, 0, -1⟩,
   ⟨1, 0, 0, 1⟩,
   ⟨2, 1, 1, -1⟩,
   ⟨2, 0, 0, 1⟩,
   ⟨3, 1, 2, -1⟩,
   ⟨3, 0, 0, 1⟩]
  hint := "N"

/-- stepPattern.py:600-604 -/
def _symmetricVelichkoZagoruyko : StepPattern where
  mx := [
   ⟨1, 0, 1, -1⟩,
   ⟨2, 1, 1, -1⟩,
   ⟨2, 0, 0, -1001/1000⟩,
   ⟨3, 1, 0, -1⟩]
  hint := "NA"

/-- stepPattern.py:614-625 -/
def _asymmetricItakura : StepPattern where
  mx := [
   ⟨1, 1, 2, -1⟩,
   ⟨1, 0, 0, 1⟩,
   ⟨2, 1, 1, -1⟩,
   ⟨2, 0, 0, 1⟩,
   ⟨3, 2, 1, -1⟩,
   ⟨3, 1, 0, 1⟩,
   ⟨3, 0, 0, 1⟩,
   ⟨4, 2, 2, -1⟩,
   ⟨4, 1, 0, 1⟩,
   ⟨4, 0, 0, 1⟩]
  hint := "NA"

/-- stepPattern.py:639 -/
def symmetricP0 : StepPattern := symmetric2

/-- stepPattern.py:642-649 -/
def asymmetricP0 : StepPattern where
  mx := [
   ⟨1, 0, 1, -1⟩,
   ⟨1, 0, 0, 0⟩,
   ⟨2, 1, 1, -1⟩,
   ⟨2, 0, 0, 1⟩,
   ⟨3, 1, 0, -1⟩,
   ⟨3, 0, 0, 1⟩]
  hint := "N"

/-- stepPattern.py:652-658 -/
def _asymmetricP0b : StepPattern where
  mx := [
   ⟨1, 0, 1, -1⟩,
   ⟨2, 1, 1, -1⟩,
   ⟨2, 0, 0, 1⟩,
   ⟨3, 1, 0, -1⟩,
   ⟨3, 0, 0, 1⟩]
  hint := "N"

/-- stepPattern.py:661-678 -/
def symmetricP05 : StepPattern where
  mx := [
   ⟨1, 1, 3, -1⟩,
   ⟨1, 0, 2, 2⟩,
   ⟨1, 0, 1, 1⟩,
   ⟨1, 0, 0, 1⟩,
   ⟨2, 1, 2, -1⟩,
   ⟨2, 0, 1, 2⟩,
   ⟨2, 0, 0, 1⟩,
   ⟨3, 1, 1, -1⟩,
   ⟨3, 0, 0, 2⟩,
   ⟨4, 2, 1, -1⟩,
   ⟨4, 1, 0, 2⟩,
   ⟨4, 0, 0, 1⟩,
   ⟨5, 3, 1, -1⟩,
   ⟨5, 2, 0, 2⟩,
   ⟨5, 1, 0, 1⟩,
   ⟨5, 0, 0, 1⟩]
  hint := "N+M"

/-- stepPattern.py:680-697 -/
def asymmetricP05 : StepPattern where
  mx := [
   ⟨1, 1, 3, -1⟩,
   ⟨1, 0, 2, 1/3⟩,
   ⟨1, 0, 1, 1/3⟩,
   ⟨1, 0, 0, 1/3⟩,
   ⟨2, 1, 2, -1⟩,
   ⟨2, 0, 1, 1/2⟩,
   ⟨2, 0, 0, 1/2⟩,
   ⟨3, 1, 1, -1⟩,
   ⟨3, 0, 0, 1⟩,
   ⟨4, 2, 1, -1⟩,
   ⟨4, 1, 0, 1⟩,
   ⟨4, 0, 0, 1⟩,
   ⟨5, 3, 1, -1⟩,
   ⟨5, 2, 0, 1⟩,
   ⟨5, 1, 0, 1⟩,
   ⟨5, 0, 0, 1⟩]
  hint := "N"

/-- stepPattern.py:702-711 -/
def symmetricP1 : StepPattern where
  mx := [
   ⟨1, 1, 2, -1⟩,
   ⟨1, 0, 1, 2⟩,
   ⟨1, 0, 0, 1⟩,
   ⟨2, 1, 1, -1⟩,
   ⟨2, 0, 0, 2⟩,
   ⟨3, 2, 1, -1⟩,
   ⟨3, 1, 0, 2⟩,
   ⟨3, 0, 0, 1⟩]
  hint := "N+M"

/-- stepPattern.py:713-722 -/
def asymmetricP1 : StepPattern where
  mx := [
   ⟨1, 1, 2, -1⟩,
   ⟨1, 0, 1, 1/2⟩,
   ⟨1, 0, 0, 1/2⟩,
   ⟨2, 1, 1, -1⟩,
   ⟨2, 0, 0, 1⟩,
   ⟨3, 2, 1, -1⟩,
   ⟨3, 1, 0, 1⟩,
   ⟨3, 0, 0, 1⟩]
  hint := "N"

/-- stepPattern.py:725-736 -/
def symmetricP2 : StepPattern where
  mx := [
   ⟨1, 2, 3, -1⟩,
   ⟨1, 1, 2, 2⟩,
   ⟨1, 0, 1, 2⟩,
   ⟨1, 0, 0, 1⟩,
   ⟨2, 1, 1, -1⟩,
   ⟨2, 0, 0, 2⟩,
   ⟨3, 3, 2, -1⟩,
   ⟨3, 2, 1, 2⟩,
   ⟨3, 1, 0, 2⟩,
   ⟨3, 0, 0, 1⟩]
  hint := "N+M"

/-- stepPattern.py:738-749 -/
def asymmetricP2 : StepPattern where
  mx := [
   ⟨1, 2, 3, -1⟩,
   ⟨1, 1, 2, 2/3⟩,
   ⟨1, 0, 1, 2/3⟩,
   ⟨1, 0, 0, 2/3⟩,
   ⟨2, 1, 1, -1⟩,
   ⟨2, 0, 0, 1⟩,
   ⟨3, 3, 2, -1⟩,
   ⟨3, 2, 1, 1⟩,
   ⟨3, 1, 0, 1⟩,
   ⟨3, 0, 0, 1⟩]
  hint := "N"

/-- stepPattern.py:785-794 -/
def typeIa : StepPattern where
  mx := [
   ⟨1, 2, 1, -1⟩,
   ⟨1, 1, 0, 1⟩,
   ⟨1, 0, 0, 0⟩,
   ⟨2, 1, 1, -1⟩,
   ⟨2, 0, 0, 1⟩,
   ⟨3, 1, 2, -1⟩,
   ⟨3, 0, 1, 1⟩,
   ⟨3, 0, 0, 0⟩]
  hint := "NA"

/-- stepPattern.py:796-805 -/
def typeIb : StepPattern where
  mx := [
   ⟨1, 2, 1, -1⟩,
   ⟨1, 1, 0, 1⟩,
   ⟨1, 0, 0, 1⟩,
   ⟨2, 1, 1, -1⟩,
   ⟨2, 0, 0, 1⟩,
   ⟨3, 1, 2, -1⟩,
   ⟨3, 0, 1, 1⟩,
   ⟨3, 0, 0, 1⟩]
  hint := "NA"

/-- stepPattern.py:807-816 -/
def typeIc : StepPattern where
  mx := [
   ⟨1, 2, 1, -1⟩,
   ⟨1, 1, 0, 1⟩,
   ⟨1, 0, 0, 1⟩,
   ⟨2, 1, 1, -1⟩,
   ⟨2, 0, 0, 1⟩,
   ⟨3, 1, 2, -1⟩,
   ⟨3, 0, 1, 1⟩,
   ⟨3, 0, 0, 0⟩]
  hint := "N"

/-- stepPattern.py:818-827 -/
def typeId : StepPattern where
  mx := [
   ⟨1, 2, 1, -1⟩,
   ⟨1, 1, 0, 2⟩,
   ⟨1, 0, 0, 1⟩,
   ⟨2, 1, 1, -1⟩,
   ⟨2, 0, 0, 2⟩,
   ⟨3, 1, 2, -1⟩,
   ⟨3, 0, 1, 2⟩,
   ⟨3, 0, 0, 1⟩]
  hint := "N+M"

/-- stepPattern.py:832-841 -/
def typeIas : StepPattern where
  mx := [
   ⟨1, 2, 1, -1⟩,
   ⟨1, 1, 0, 1/2⟩,
   ⟨1, 0, 0, 1/2⟩,
   ⟨2, 1, 1, -1⟩,
   ⟨2, 0, 0, 1⟩,
   ⟨3, 1, 2, -1⟩,
   ⟨3, 0, 1, 1/2⟩,
   ⟨3, 0, 0, 1/2⟩]
  hint := "NA"

/-- stepPattern.py:843-852 -/
def typeIbs : StepPattern where
  mx := [
   ⟨1, 2, 1, -1⟩,
   ⟨1, 1, 0, 1⟩,
   ⟨1, 0, 0, 1⟩,
   ⟨2, 1, 1, -1⟩,
   ⟨2, 0, 0, 1⟩,
   ⟨3, 1, 2, -1⟩,
   ⟨3, 0, 1, 1⟩,
   ⟨3, 0, 0, 1⟩]
  hint := "NA"

/-- stepPattern.py:854-863 -/
def typeIcs : StepPattern where
  mx := [
   ⟨1, 2, 1, -1⟩,
   ⟨1, 1, 0, 1⟩,
   ⟨1, 0, 0, 1⟩,
   ⟨2, 1, 1, -1⟩,
   ⟨2, 0, 0, 1⟩,
   ⟨3, 1, 2, -1⟩,
   ⟨3, 0, 1, 1/2⟩,
   ⟨3, 0, 0, 1/2⟩]
  hint := "N"

/-- stepPattern.py:865-874 -/
def typeIds : StepPattern where
  mx := [
   ⟨1, 2, 1, -1⟩,
   ⟨1, 1, 0, 3/2⟩,
   ⟨1, 0, 0, 3/2⟩,
   ⟨2, 1, 1, -1⟩,
   ⟨2, 0, 0, 2⟩,
   ⟨3, 1, 2, -1⟩,
   ⟨3, 0, 1, 3/2⟩,
   ⟨3, 0, 0, 3/2⟩]
  hint := "N+M"

/-- stepPattern.py:878-885 -/
def typeIIa : StepPattern where
  mx := [
   ⟨1, 1, 1, -1⟩,
   ⟨1, 0, 0, 1⟩,
   ⟨2, 1, 2, -1⟩,
   ⟨2, 0, 0, 1⟩,
   ⟨3, 2, 1, -1⟩,
   ⟨3, 0, 0, 1⟩]
  hint := "NA"

/-- stepPattern.py:887-894 -/
def typeIIb : StepPattern where
  mx := [
   ⟨1, 1, 1, -1⟩,
   ⟨1, 0, 0, 1⟩,
   ⟨2, 1, 2, -1⟩,
   ⟨2, 0, 0, 2⟩,
   ⟨3, 2, 1, -1⟩,
   ⟨3, 0, 0, 2⟩]
  hint := "NA"

/-- stepPattern.py:896-903 -/
def typeIIc : StepPattern where
  mx := [
   ⟨1, 1, 1, -1⟩,
   ⟨1, 0, 0, 1⟩,
   ⟨2, 1, 2, -1⟩,
   ⟨2, 0, 0, 1⟩,
   ⟨3, 2, 1, -1⟩,
   ⟨3, 0, 0, 2⟩]
  hint := "N"

/-- stepPattern.py:905-912 -/
def typeIId : StepPattern where
  mx := [
   ⟨1, 1, 1, -1⟩,
   ⟨1, 0, 0, 2⟩,
   ⟨2, 1, 2, -1⟩,
   ⟨2, 0, 0, 3⟩,
   ⟨3, 2, 1, -1⟩,
   ⟨3, 0, 0, 3⟩]
  hint := "N+M"

/-- stepPattern.py:918-929 -/
def typeIIIc : StepPattern where
  mx := [
   ⟨1, 1, 2, -1⟩,
   ⟨1, 0, 0, 1⟩,
   ⟨2, 1, 1, -1⟩,
   ⟨2, 0, 0, 1⟩,
   ⟨3, 2, 1, -1⟩,
   ⟨3, 1, 0, 1⟩,
   ⟨3, 0, 0, 1⟩,
   ⟨4, 2, 2, -1⟩,
   ⟨4, 1, 0, 1⟩,
   ⟨4, 0, 0, 1⟩]
  hint := "N"

/-- stepPattern.py:935-963 -/
def typeIVc : StepPattern where
  mx := [
   ⟨1, 1, 1, -1⟩,
   ⟨1, 0, 0, 1⟩,
   ⟨2, 1, 2, -1⟩,
   ⟨2, 0, 0, 1⟩,
   ⟨3, 1, 3, -1⟩,
   ⟨3, 0, 0, 1⟩,
   ⟨4, 2, 1, -1⟩,
   ⟨4, 1, 0, 1⟩,
   ⟨4, 0, 0, 1⟩,
   ⟨5, 2, 2, -1⟩,
   ⟨5, 1, 0, 1⟩,
   ⟨5, 0, 0, 1⟩,
   ⟨6, 2, 3, -1⟩,
   ⟨6, 1, 0, 1⟩,
   ⟨6, 0, 0, 1⟩,
   ⟨7, 3, 1, -1⟩,
   ⟨7, 2, 0, 1⟩,
   ⟨7, 1, 0, 1⟩,
   ⟨7, 0, 0, 1⟩,
   ⟨8, 3, 2, -1⟩,
   ⟨8, 2, 0, 1⟩,
   ⟨8, 1, 0, 1⟩,
   ⟨8, 0, 0, 1⟩,
   ⟨9, 3, 3, -1⟩,
   ⟨9, 2, 0, 1⟩,
   ⟨9, 1, 0, 1⟩,
   ⟨9, 0, 0, 1⟩]
  hint := "N"

/-- stepPattern.py:976-985 -/
def mori2006 : StepPattern where
  mx := [
   ⟨1, 2, 1, -1⟩,
   ⟨1, 1, 0, 2⟩,
   ⟨1, 0, 0, 1⟩,
   ⟨2, 1, 1, -1⟩,
   ⟨2, 0, 0, 3⟩,
   ⟨3, 1, 2, -1⟩,
   ⟨3, 0, 1, 3⟩,
   ⟨3, 0, 0, 3⟩]
  hint := "M"

/-- stepPattern.py:989-990 -/
def rigid : StepPattern where
  mx := [
   ⟨1, 1, 1, -1⟩,
   ⟨1, 0, 0, 1⟩]
  hint := "N"

/-- Every module-level step pattern object of stepPattern.py:557-990, by attribute name. -/
def table : List (String × StepPattern) := [
  ("symmetric1", symmetric1),
  ("symmetric2", symmetric2),
  ("asymmetric", asymmetric),
  ("_symmetricVelichkoZagoruyko", _symmetricVelichkoZagoruyko),
  ("_asymmetricItakura", _asymmetricItakura),
  ("symmetricP0", symmetricP0),
  ("asymmetricP0", asymmetricP0),
  ("_asymmetricP0b", _asymmetricP0b),
  ("symmetricP05", symmetricP05),
  ("asymmetricP05", asymmetricP05),
  ("symmetricP1", symmetricP1),
  ("asymmetricP1", asymmetricP1),
  ("symmetricP2", symmetricP2),
  ("asymmetricP2", asymmetricP2),
  ("typeIa", typeIa),
  ("typeIb", typeIb),
  ("typeIc", typeIc),
  ("typeId", typeId),
  ("typeIas", typeIas),
  ("typeIbs", typeIbs),
  ("typeIcs", typeIcs),
  ("typeIds", typeIds),
  ("typeIIa", typeIIa),
  ("typeIIb", typeIIb),
  ("typeIIc", typeIIc),
  ("typeIId", typeIId),
  ("typeIIIc", typeIIIc),
  ("typeIVc", typeIVc),
  ("mori2006", mori2006),
  ("rigid", rigid)]

end Pat
end DTW
