import Verif.Py.Basic
import Verif.Model.Samples
import Verif.Model.Reindex
import Verif.Lemmas.Index
import Verif.Lemmas.Reindex
import Verif.Props.C01
import Verif.Props.C02
import Verif.Props.C03
import Verif.Props.C04
import Verif.Props.C05
import Verif.Props.C06
import Verif.Props.C07
import Verif.Props.C08
import Verif.Props.C09
import Verif.Props.C10
import Verif.Props.C11
import Verif.Props.C12
import Verif.Props.C13
import Verif.Props.C14
import Verif.Props.C15
import Verif.Props.C16
import Verif.Props.C17
import Verif.Props.C18
import Verif.Props.C19
import Verif.Props.C20
import Verif.Props.C21
import Verif.Props.C21Otf
import Verif.Props.C22
import Verif.Props.C23
import Verif.Props.C24
import Verif.Props.C25
import Verif.Props.C25Otf
import Verif.Props.C26
import Verif.Props.C27
import Verif.Props.C28
import Verif.Props.C29
import Verif.Props.C30
import Verif.Props.C31
import Verif.Props.C32
import Verif.Props.C33
import Verif.Props.C34
import Verif.Props.C33Backend
import Verif.Props.C35
import Verif.Props.C36
import Verif.Props.C37
import Verif.Props.C37Not
import Verif.Props.C38
import Verif.Props.C39
import Verif.Props.C40
import Verif.Props.C41
import Verif.Props.C42
import Verif.Props.C43
import Verif.Props.C44
import Verif.Props.C45
import Verif.Props.C46
import Verif.Props.C47
import Verif.Props.C48
import Verif.Props.C48Gl
import Verif.Props.C49
import Verif.Props.C39Stored
import Verif.Props.C38Stored
import Verif.Props.C50
import Verif.Props.C49Resampled
import Verif.Props.C49Gl
import Verif.Props.C49Healpix
import Verif.Props.C51
import Verif.Props.C51More
import Verif.Props.C52
import Verif.Props.C52Wigner
import Verif.Props.C52Refined
import Verif.Props.C53
import Verif.Props.C53Wigner
import Verif.Props.C54
import Verif.Props.C55
import Verif.Props.C55Wigner
import Verif.Props.C56
import Verif.Props.C56Wigner
import Verif.Props.C31Refines
import Verif.Props.C31Real
import Verif.Props.C57
import Verif.Props.C57Wigner
import Verif.Props.C57FourierWigner
import Verif.Model.Primitives
import Verif.Props.C31Healpy
import Verif.Props.C58
import Verif.Props.C59
import Verif.Props.C59Forward
import Verif.Props.C59Gl
import Verif.Spec.XlaDouble
import Verif.Spec.DegreeNorm
import Verif.Model.RisboJaxDouble
import Verif.Props.C60
import Verif.Model.FourierWignerDouble
import Verif.Props.C61
import Verif.Props.C61Forward
import Verif.Model.PrecomputeJaxDouble
import Verif.Props.C62
import Verif.Props.C62Wigner
import Verif.Props.C62Gl
import Verif.Props.C62Resampled
