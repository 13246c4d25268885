import Verif.Props.C01
import Verif.Props.C03
import Verif.Props.C04
import Verif.Props.C06
import Verif.Props.C12
import Verif.Props.C18
import Verif.Props.C23
import Verif.Props.C27
import Verif.Props.C07
import Verif.Props.C31
import Verif.Props.C33
import Verif.Props.C34
import Verif.Props.C38
import Verif.Props.C39
import Verif.Props.C44
import Verif.Props.C37
import Verif.Props.C36
import Verif.Props.C47
import Verif.Props.C50
import Verif.Props.C51
import Verif.Props.C52
import Verif.Props.C53
import Verif.Props.C55
import Verif.Props.C09
import Verif.Props.C56
import Verif.Props.C57
import Verif.Props.C58
import Verif.Props.C59
import Verif.Props.C60
import Verif.Props.C61
import Verif.Props.C62
import Verif.Props.C63
import Verif.Props.C64
import Verif.Props.C65
import Verif.Props.C66
import Verif.Props.C67
import Verif.Props.C68
import Verif.Props.C69
import Verif.Props.C70
import Verif.Props.C71
import Verif.Props.C72
import Verif.Props.C73
import Verif.Props.C74
import Verif.Props.C75
import Verif.Props.C76
import Verif.Props.C77
import Verif.Props.C78
